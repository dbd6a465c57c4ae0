import Verif.BoseCI.Energy
import Mathlib.Topology.Order.MonotoneConvergence
import Mathlib.Topology.Instances.Real.Lemmas

/-!
# What a run returns
-/

namespace Verif.BoseCI

open Matrix

/-- The eigensolver meets its contract on symmetric matrices. -/
def Solves (eigsh : Solver) : Prop := ∀ (N : Nat) (H : Matrix (Fin N) (Fin N) ℝ), Hᵀ = H → Eigsh H (eigsh N H)

/-- The determinants of a run. -/
def dsOf (sys : CI.System ℝ) (occs : Option (List (List Nat × List Nat))) : List (List Nat) :=
  spinDets sys.nbasis (occs.getD (allOccs sys.nbasis sys.nup sys.ndown))

/-! ### The determinants when none are given -/

theorem mergeSort_sorted {l : List Nat} (h : l.Pairwise (· < ·)) : l.mergeSort = l := by
  apply List.mergeSort_of_pairwise
  exact h.imp fun hab => by simpa using Nat.le_of_lt hab

theorem ds_default (sys : CI.System ℝ) : dsOf sys none = CI.fciDets sys := by
  have h : dsOf sys none = (CI.fciDets sys).map fun d => d.mergeSort := by
    simp only [dsOf, spinDets, allOccs, CI.fciDets, Option.getD_none, List.map_flatMap, List.map_map]
    rfl
  rw [h]
  conv_rhs => rw [← List.map_id (CI.fciDets sys)]
  refine List.map_congr_left fun d hd => ?_
  exact mergeSort_sorted ((CI.mem_fciDets sys d).1 hd).1.sorted

theorem dets_default (sys : CI.System ℝ) : Dets sys (dsOf sys none) := by
  rw [ds_default]
  exact ⟨fun d hd => ((CI.mem_fciDets sys d).1 hd).1, fun d hd => ((CI.mem_fciDets sys d).1 hd).2.1,
    fun d hd => ((CI.mem_fciDets sys d).1 hd).2.2, CI.nodup_fciDets sys⟩

/-- Without `occs` all electron states with the numbers of electrons of the system are used. -/
theorem space_default (sys : CI.System ℝ) : space (dsOf sys none) = electrons sys.nbasis sys.nup sys.ndown := by
  rw [ds_default]
  ext S
  simp only [space, electrons, List.mem_toFinset, List.mem_map, Finset.mem_filter, Finset.mem_powerset]
  have cnt : ∀ d : List Nat, CI.Det sys.nbasis d →
      (d.toFinset.filter (· < sys.nbasis)).card = (d.filter (· < sys.nbasis)).length := by
    intro d hd
    rw [← List.toFinset_card_of_nodup (hd.nodup.filter _), List.toFinset_filter]
    simp
  constructor
  · rintro ⟨d, hd, rfl⟩
    obtain ⟨h1, h2, h3⟩ := (CI.mem_fciDets sys d).1 hd
    refine ⟨h1.sub, by rw [cnt d h1, h2], by rw [List.toFinset_card_of_nodup h1.nodup, h3]⟩
  · rintro ⟨h1, h2, h3⟩
    have hdet : CI.Det sys.nbasis (S.sort (· ≤ ·)) :=
      ⟨S.sortedLT_sort.pairwise, fun o ho => Finset.mem_range.1 (h1 ((Finset.mem_sort _).1 ho))⟩
    have hS : (S.sort (· ≤ ·)).toFinset = S := Finset.sort_toFinset S _
    refine ⟨S.sort (· ≤ ·), (CI.mem_fciDets sys _).2 ⟨hdet, ?_, ?_⟩, hS⟩
    · rw [← cnt _ hdet, hS, h2]
    · rw [Finset.length_sort, h3]

section

variable {eigsh : Solver} {sys : CI.System ℝ} {ph : Ph} {nmax : Nat} {occs : Option (List (List Nat × List Nat))}

theorem run_eq (hnb : 0 < sys.nbasis) : run eigsh sys ph nmax occs =
    (eigsh _ (htot sys ph nmax (grp sys nmax) (dsOf sys occs))).map fun r => (r.1, fun k => List.ofFn (r.2 k)) := by
  unfold run
  rw [sectors_eq _ _ hnb]
  rfl

/-- **C106**: a run returns three orthonormal states and the lowest energies: they are eigenstates of the Hamiltonian
restricted to at most the stated number of phonons, and no state orthogonal to the ones before has a lower energy. -/
theorem lowest (hE : Solves eigsh) (hnb : 0 < sys.nbasis) (hsym : Sym sys) (hds : Dets sys (dsOf sys occs))
    {out : (Fin 3 → ℝ) × (Fin 3 → List ℝ)} (h : run eigsh sys ph nmax occs = some out) :
    ∃ ψ : Fin 3 → Amp sys.nbasis,
      (∀ k, State (space (dsOf sys occs)) (ψ k) ∧ AtMost nmax (ψ k)) ∧
      (∀ k, out.2 k = List.ofFn fun r => ψ k (basisOf sys nmax (dsOf sys occs) r)) ∧
      (∀ k l, braket (ψ k) (ψ l) = if k = l then 1 else 0) ∧ Monotone out.1 ∧
      (∀ k φ, State (space (dsOf sys occs)) φ → AtMost nmax φ →
        braket φ (ham' sys ph (dsOf sys occs) (ψ k)) = out.1 k * braket φ (ψ k)) ∧
      ∀ k φ, State (space (dsOf sys occs)) φ → AtMost nmax φ → (∀ l < k, braket (ψ l) φ = 0) →
        out.1 k * braket φ φ ≤ braket φ (ham' sys ph (dsOf sys occs) φ) := by
  rw [run_eq hnb] at h
  have hc := hE _ _ (htot_symm (sys := sys) (ph := ph) (nmax := nmax) (ds := dsOf sys occs) (grp sys nmax))
  rcases hr : eigsh _ (htot sys ph nmax (grp sys nmax) (dsOf sys occs)) with _ | ⟨val, vec⟩
  · rw [hr] at h; simp at h
  · rw [hr] at h hc
    obtain rfl : (val, fun k => List.ofFn (vec k)) = out := by simpa using h
    obtain ⟨h3, heig, horth, hmono, hrest⟩ := id hc
    refine ⟨fun k => embed sys nmax _ (vec k), fun k => embed_state hnb _, fun k => ?_, fun k l => ?_, hmono,
      fun k φ h1 h2 => ?_, fun k φ h1 h2 ho => ?_⟩
    · change List.ofFn (vec k) = List.ofFn _
      congr 1
      funext r
      exact (embed_basisOf hnb hds (vec k) r).symm
    · rw [braket_embed_embed hnb hds, horth]
    · rw [← embed_of_state hnb hds h1 h2, braket_ham hnb hsym hds, braket_embed_embed hnb hds, heig, dotProduct_smul,
        smul_eq_mul]
    · rw [← embed_of_state hnb hds h1 h2, braket_ham hnb hsym hds, braket_embed_embed hnb hds]
      refine rayleigh (htot_symm _) hc k _ fun l hl => ?_
      rw [← braket_embed_embed hnb hds, embed_of_state hnb hds h1 h2]
      exact ho l hl

/-- It returns unless there are three or fewer basis states. -/
theorem returns (hE : Solves eigsh) (hnb : 0 < sys.nbasis) : run eigsh sys ph nmax occs = none ↔
    (perms (grp sys nmax)).length * (dsOf sys occs).length ≤ 3 := by
  rw [run_eq hnb]
  have hc := hE _ _ (htot_symm (sys := sys) (ph := ph) (nmax := nmax) (ds := dsOf sys occs) (grp sys nmax))
  rcases hr : eigsh _ (htot sys ph nmax (grp sys nmax) (dsOf sys occs)) with _ | ⟨val, vec⟩
  · rw [hr] at hc
    simpa [Eigsh] using hc
  · rw [hr] at hc
    have := hc.1
    simp only [Option.map_some, reduceCtorEq, false_iff, not_le]
    exact this

theorem group_pos {nb k : Nat} (hnb : 0 < nb) : 0 < (group nb k).length := by
  obtain ⟨m, rfl⟩ : ∃ m, nb = m + 1 := ⟨nb - 1, by omega⟩
  exact List.length_pos_of_mem ((mem_balls_replicate (m + 1) k hnb (k :: List.replicate m 0)).2 ⟨by simp, by simp⟩)

theorem np_ge {nb : Nat} (hnb : 0 < nb) (nmax : Nat) : nmax + 1 ≤ (perms (groups nb nmax)).length := by
  unfold perms groups
  rw [List.length_flatten, List.map_map]
  have : ∀ l : List Nat, l.length ≤ (l.map (List.length ∘ group nb)).sum := by
    intro l
    induction l with
    | nil => simp
    | cons x l ih =>
      have := group_pos (k := x) hnb
      simp only [List.length_cons, List.map_cons, List.sum_cons, Function.comp_apply]
      omega
  simpa using this (List.range (nmax + 1))

/-- With three or more phonons it always returns. -/
theorem returns_of_three (hE : Solves eigsh) (hnb : 0 < sys.nbasis) (hne : dsOf sys occs ≠ []) (h3 : 3 ≤ nmax) :
    ∃ out, run eigsh sys ph nmax occs = some out := by
  rw [← Option.isSome_iff_exists, Option.isSome_iff_ne_none, Ne, returns hE hnb]
  have h1 := np_ge hnb nmax
  have h2 : 1 ≤ (dsOf sys occs).length := List.length_pos_iff.2 hne
  have := Nat.mul_le_mul h1 h2
  simp only [grp] at this ⊢
  omega

theorem AtMost.mono {n N M : Nat} (h : N ≤ M) {ψ : Amp n} (hψ : AtMost N ψ) : AtMost M ψ := fun x hx => (hψ x hx).trans h

theorem state_sum {n K : Nat} {D : Finset (Finset ℕ)} {N : Nat} (c : Fin K → ℝ) (ψ : Fin K → Amp n)
    (h : ∀ k, State D (ψ k) ∧ AtMost N (ψ k)) : State D (∑ k, c k • ψ k) ∧ AtMost N (∑ k, c k • ψ k) := by
  have key : ∀ x, (∑ k, c k • ψ k) x ≠ 0 → ∃ k, ψ k x ≠ 0 := by
    intro x hx
    by_contra hne
    push Not at hne
    apply hx
    rw [Finset.sum_apply]
    exact Finset.sum_eq_zero fun k _ => by rw [Pi.smul_apply, hne k, smul_zero]
  refine ⟨⟨?_, fun x hx => ?_⟩, fun x hx => ?_⟩
  · refine (Set.finite_iUnion fun k => (h k).1.1).subset fun x hx => ?_
    obtain ⟨k, hk⟩ := key x hx
    exact Set.mem_iUnion.2 ⟨k, hk⟩
  · obtain ⟨k, hk⟩ := key x hx
    exact (h k).1.2 x hk
  · obtain ⟨k, hk⟩ := key x hx
    exact (h k).2 x hk

/-- **C106**: with more phonons none of the energies rises. -/
theorem monotone (hE : Solves eigsh) (hnb : 0 < sys.nbasis) (hsym : Sym sys) (hds : Dets sys (dsOf sys occs))
    {M : Nat} (hM : nmax ≤ M) {out out' : (Fin 3 → ℝ) × (Fin 3 → List ℝ)}
    (h : run eigsh sys ph nmax occs = some out) (h' : run eigsh sys ph M occs = some out') (k : Fin 3) :
    out'.1 k ≤ out.1 k := by
  obtain ⟨ψ, hψ, -, horth, hmono, heig, -⟩ := lowest hE hnb hsym hds h
  obtain ⟨φ, hφ, -, -, -, -, hlow⟩ := lowest hE hnb hsym hds h'
  set ds := dsOf sys occs with hdsd
  -- vectors of the larger problem
  let tr : Amp sys.nbasis → Fin (np (grp sys M) * ds.length) → ℝ := fun χ r => χ (basisOf sys M ds r)
  have htr : ∀ χ, State (space ds) χ → AtMost M χ → embed sys M ds (tr χ) = χ := fun χ h1 h2 => embed_of_state hnb hds h1 h2
  obtain ⟨c, hc0, hc⟩ := exists_orthogonal k.1 (fun m => tr (ψ ⟨m, by omega⟩)) (fun l => tr (φ ⟨l, by omega⟩))
  set χ := ∑ m : Fin (k.1 + 1), c m • ψ ⟨m, by omega⟩ with hχ
  have hsχ := state_sum c (fun m : Fin (k.1 + 1) => ψ ⟨m, by omega⟩) fun m => hψ _
  rw [← hχ] at hsχ
  have hχM := hsχ.2.mono hM
  have htrχ : tr χ = ∑ m : Fin (k.1 + 1), c m • tr (ψ ⟨m, by omega⟩) := by
    funext r
    simp [tr, hχ, Finset.sum_apply]
  -- overlaps
  have hbr : ∀ m : Fin 3, braket (ψ m) χ = tr (ψ m) ⬝ᵥ tr χ := by
    intro m
    rw [← braket_embed_embed hnb hds, htr _ (hψ m).1 ((hψ m).2.mono hM), htr _ hsχ.1 hχM]
  have hψψ : ∀ m l : Fin 3, tr (ψ m) ⬝ᵥ tr (ψ l) = if m = l then 1 else 0 := by
    intro m l
    rw [← braket_embed_embed hnb hds, htr _ (hψ m).1 ((hψ m).2.mono hM), htr _ (hψ l).1 ((hψ l).2.mono hM), horth]
  have hcoef : ∀ m : Fin (k.1 + 1), braket (ψ ⟨m, by omega⟩) χ = c m := by
    intro m
    rw [hbr, htrχ, dotProduct_sum]
    rw [Finset.sum_eq_single m]
    · rw [dotProduct_smul, hψψ, if_pos rfl, smul_eq_mul, mul_one]
    · intro l _ hl
      rw [dotProduct_smul, hψψ, if_neg, smul_zero]
      intro e
      exact hl (Fin.ext (by simpa using congrArg Fin.val e.symm))
    · simp
  have hlin : ∀ F : Amp sys.nbasis, braket χ F = ∑ m : Fin (k.1 + 1), c m * braket (ψ ⟨m, by omega⟩) F := by
    intro F
    rw [← htr _ hsχ.1 hχM, braket_embed hnb hds, htrχ, sum_dotProduct]
    refine Finset.sum_congr rfl fun m _ => ?_
    rw [smul_dotProduct, smul_eq_mul, ← braket_embed hnb hds, htr _ (hψ _).1 ((hψ _).2.mono hM)]
  have hnorm : braket χ χ = ∑ m, c m ^ 2 := by
    rw [hlin]
    exact Finset.sum_congr rfl fun m _ => by rw [hcoef, sq]
  have hsymm : ∀ m : Fin 3, braket (ψ m) (ham' sys ph ds χ) = braket χ (ham' sys ph ds (ψ m)) := by
    intro m
    rw [← htr _ hsχ.1 hχM, ← htr _ (hψ m).1 ((hψ m).2.mono hM), braket_ham hnb hsym hds, braket_ham hnb hsym hds,
      symm_dot (htot_symm _)]
  have hcomm : ∀ m : Fin 3, braket χ (ψ m) = braket (ψ m) χ := by
    intro m
    unfold braket
    exact finsum_congr fun x => mul_comm _ _
  have hen : braket χ (ham' sys ph ds χ) = ∑ m : Fin (k.1 + 1), out.1 ⟨m, by omega⟩ * c m ^ 2 := by
    rw [hlin]
    refine Finset.sum_congr rfl fun m _ => ?_
    rw [hsymm, heig _ _ hsχ.1 hsχ.2, hcomm, hcoef]
    ring
  have hup : braket χ (ham' sys ph ds χ) ≤ out.1 k * ∑ m, c m ^ 2 := by
    rw [hen, Finset.mul_sum]
    refine Finset.sum_le_sum fun m _ => mul_le_mul_of_nonneg_right (hmono ?_) (sq_nonneg _)
    exact Fin.mk_le_of_le_val (by omega)
  have hlo := hlow k χ hsχ.1 hχM (by
    intro l hl
    have hl' : (l : Nat) < k := hl
    have := hc ⟨l, hl'⟩
    rw [← htrχ] at this
    rw [← htr _ (hφ l).1 (hφ l).2, ← htr _ hsχ.1 hχM, braket_embed_embed hnb hds]
    exact this)
  rw [hnorm] at hlo
  have hpos : 0 < ∑ m, c m ^ 2 := by
    obtain ⟨m, hm⟩ := Function.ne_iff.1 hc0
    exact lt_of_lt_of_le (by have : c m ≠ 0 := hm; positivity) (Finset.single_le_sum (f := fun m => c m ^ 2)
      (fun _ _ => sq_nonneg _) (Finset.mem_univ m))
  exact le_of_mul_le_mul_right (hlo.trans hup) hpos

end

end Verif.BoseCI
