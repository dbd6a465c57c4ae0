import Verif.BoseCI.Matrix
import Mathlib.Tactic.LinearCombination

/-!
# The matrix that is diagonalised is the Hamiltonian between the basis states
-/

namespace Verif.BoseCI

open Matrix

variable {n : Nat}

theorem bAnn_smul (s : Fin n) (c : ℝ) (ψ : Amp n) : bAnn s (c • ψ) = c • bAnn s ψ := by
  funext x; simp only [bAnn, Pi.smul_apply, smul_eq_mul]; ring

theorem bCre_smul (s : Fin n) (c : ℝ) (ψ : Amp n) : bCre s (c • ψ) = c • bCre s ψ := by
  funext x
  simp only [bCre, Pi.smul_apply, smul_eq_mul]
  split_ifs <;> ring

/-- The Hamiltonian is linear. -/
noncomputable def hamLin (e : ℝ) (h : Nat → Nat → ℝ) (V : Nat → Nat → Nat → Nat → ℝ) (w g : ℝ) (D : Finset (Finset ℕ)) :
    Amp n →ₗ[ℝ] Amp n where
  toFun := hamOp e h V w g D
  map_add' φ ψ := by
    funext x
    simp only [hamOp, bAnn_add, bCre_add, Pi.add_apply, mul_add, Finset.sum_add_distrib]
    ring
  map_smul' c ψ := by
    funext x
    simp only [hamOp, bAnn_smul, bCre_smul, Pi.smul_apply, smul_eq_mul, RingHom.id_apply, mul_add,
      Finset.sum_add_distrib, Finset.mul_sum]
    congr 1
    · congr 1
      · exact Finset.sum_congr rfl fun _ _ => by ring
      · exact Finset.sum_congr rfl fun _ _ => by ring
    · congr 1 <;> exact Finset.sum_congr rfl fun _ _ => by ring

/-- A basis state as amplitudes. -/
noncomputable def unit (x : Basis n) : Amp n := fun y => if y = x then 1 else 0

theorem bAnn_unit (s : Fin n) (x y : Basis n) : bAnn s (unit x) y =
    if x.1 = Function.update y.1 s (y.1 s + 1) ∧ y.2 = x.2 then Real.sqrt (x.1 s) else 0 := by
  obtain ⟨p, S⟩ := x
  obtain ⟨q, T⟩ := y
  simp only [bAnn, unit, Prod.mk.injEq, mul_ite, mul_one, mul_zero]
  refine if_ctx_congr ?_ ?_ fun _ => rfl
  · exact and_congr_left fun _ => eq_comm
  · rintro ⟨rfl, -⟩
    simp

theorem bCre_unit (s : Fin n) (x y : Basis n) : bCre s (unit x) y =
    if y.1 = Function.update x.1 s (x.1 s + 1) ∧ y.2 = x.2 then Real.sqrt (y.1 s) else 0 := by
  obtain ⟨p, S⟩ := x
  obtain ⟨q, T⟩ := y
  simp only [bCre, unit, Prod.mk.injEq, mul_ite, mul_one, mul_zero]
  by_cases h0 : q s = 0
  · rw [if_pos h0, if_neg]
    rintro ⟨rfl, -⟩
    simp at h0
  · rw [if_neg h0]
    refine if_congr (and_congr_left fun _ => ?_) rfl rfl
    constructor
    · rintro rfl
      simp only [Function.update_self, Function.update_idem]
      rw [show q s - 1 + 1 = q s by omega, Function.update_eq_self]
    · rintro rfl
      simp

section

variable (sys : CI.System ℝ) (ph : Ph) (nmax : Nat) (ds : List (List Nat))

/-- The list of determinants is one of different determinants with the numbers of electrons of the system. -/
structure Dets : Prop where
  det : ∀ d ∈ ds, CI.Det sys.nbasis d
  up : ∀ d ∈ ds, (d.filter (· < sys.nbasis)).length = sys.nup
  len : ∀ d ∈ ds, d.length = sys.nup + sys.ndown
  nodup : ds.Nodup

/-- Real symmetric integrals. -/
structure Sym : Prop where
  exch : CI.Exchange sys.hijkl
  bra : ∀ p q r s, sys.hijkl p q r s = sys.hijkl r s p q
  one : ∀ p q, sys.H1 p q = sys.H1 q p

/-- The electron states of the list. -/
def space : Finset (Finset ℕ) := (ds.map List.toFinset).toFinset

/-- The groups for the system. -/
abbrev grp : List (List (List Nat)) := groups sys.nbasis nmax

/-- The basis state that belongs to a row. -/
noncomputable def basisOf (k : Fin (np (grp sys nmax) * ds.length)) : Basis sys.nbasis :=
  (occ sys.nbasis ((perms (grp sys nmax)).getD (finProdFinEquiv.symm k).1 []),
    (ds.getD (finProdFinEquiv.symm k).2 []).toFinset)

/-- The state with the amplitudes of a vector. -/
noncomputable def embed (v : Fin (np (grp sys nmax) * ds.length) → ℝ) : Amp sys.nbasis :=
  ∑ k, v k • unit (basisOf sys nmax ds k)

end

section

variable {sys : CI.System ℝ} {ph : Ph} {nmax : Nat} {ds : List (List Nat)}

theorem getD_some {A : Type*} (l : List A) (i : Fin l.length) (d : A) : l[(i : Nat)]? = some (l.getD i d) := by
  rw [List.getD_eq_getElem?_getD, List.getElem?_eq_getElem i.2]
  rfl

theorem getD_mem {A : Type*} (l : List A) (i : Fin l.length) (d : A) : l.getD i d ∈ l :=
  List.mem_of_getElem? (getD_some l i d)

theorem det_inj {d d' : List Nat} (hd : CI.Det n d) (hd' : CI.Det n d') (h : d.toFinset = d'.toFinset) : d = d' := by
  have hp : d.Perm d' := (List.toFinset_eq_iff_perm_dedup.1 h).trans (List.Perm.refl _) |> fun hh => by
    rwa [hd.nodup.dedup, hd'.nodup.dedup] at hh
  exact hp.eq_of_pairwise (fun a b _ _ h1 h2 => absurd h1 (Nat.lt_asymm h2)) hd.sorted hd'.sorted

theorem dets_inj (hds : Dets sys ds) (i j : Fin ds.length) :
    (ds.getD i []).toFinset = (ds.getD j []).toFinset ↔ i = j := by
  constructor
  · intro h
    have e := det_inj (hds.det _ (getD_mem ds i [])) (hds.det _ (getD_mem ds j [])) h
    have := (List.getElem?_inj i.2 hds.nodup (j := j)).1 (by rw [getD_some ds i [], getD_some ds j [], e])
    exact Fin.ext this
  · rintro rfl; rfl

theorem perms_inj (hnb : 0 < sys.nbasis) (a b : Fin (np (grp sys nmax))) :
    occ sys.nbasis ((perms (grp sys nmax)).getD a []) = occ sys.nbasis ((perms (grp sys nmax)).getD b []) ↔ a = b := by
  constructor
  · intro h
    have ha := (mem_perms (nmax := nmax) hnb _).1 (getD_mem (perms (grp sys nmax)) a [])
    have hb := (mem_perms (nmax := nmax) hnb _).1 (getD_mem (perms (grp sys nmax)) b [])
    have e := occ_inj ha.1 hb.1 h
    have := (List.getElem?_inj a.2 (nodup_perms (nmax := nmax) hnb) (j := b)).1 (by
      rw [getD_some (perms (grp sys nmax)) a [], getD_some (perms (grp sys nmax)) b [], e])
    exact Fin.ext this
  · rintro rfl; rfl

theorem basisOf_inj (hnb : 0 < sys.nbasis) (hds : Dets sys ds) : Function.Injective (basisOf sys nmax ds) := by
  intro k l h
  unfold basisOf at h
  rw [Prod.mk.injEq, perms_inj hnb, dets_inj hds] at h
  exact finProdFinEquiv.symm.injective (Prod.ext h.1 h.2)

/-- **C106**: the rows are the basis states with at most the stated number of phonons and electrons in the list, in
the order phonon state times number of determinants plus determinant. -/
theorem range_basisOf (hnb : 0 < sys.nbasis) (x : Basis sys.nbasis) :
    (∃ k, basisOf sys nmax ds k = x) ↔ ∑ s, x.1 s ≤ nmax ∧ x.2 ∈ space ds := by
  constructor
  · rintro ⟨k, rfl⟩
    have ha := (mem_perms (nmax := nmax) hnb _).1 (getD_mem (perms (grp sys nmax)) (finProdFinEquiv.symm k).1 [])
    refine ⟨?_, ?_⟩
    · simp only [basisOf]
      rw [sum_occ ha.1]
      exact ha.2
    · simp only [basisOf, space, List.mem_toFinset, List.mem_map]
      exact ⟨_, getD_mem ds _ [], rfl⟩
  · rintro ⟨h1, h2⟩
    obtain ⟨p, S⟩ := x
    simp only [space, List.mem_toFinset, List.mem_map] at h2
    obtain ⟨d, hd, rfl⟩ := h2
    have hp : List.ofFn p ∈ perms (grp sys nmax) := (mem_perms (nmax := nmax) hnb _).2 ⟨by simp, by
      rw [List.sum_ofFn]; exact h1⟩
    obtain ⟨i, hi, ei⟩ := List.getElem_of_mem hd
    obtain ⟨a, ha, ea⟩ := List.getElem_of_mem hp
    refine ⟨finProdFinEquiv (⟨a, ha⟩, ⟨i, hi⟩), ?_⟩
    unfold basisOf
    rw [Equiv.symm_apply_apply]
    simp only [List.getD_eq_getElem?_getD, List.getElem?_eq_getElem ha, List.getElem?_eq_getElem hi, Option.getD_some,
      ea, ei, ofFn_occ]

/-- Electrons on a site. -/
theorem rho_eq {d : List Nat} (hd : CI.Det n d) {s : Nat} (hs : s < n) : rho n s d = dens n s d.toFinset := by
  unfold rho dens
  rw [← List.sum_toFinset _ hd.nodup]
  have e : ∀ o ∈ d.toFinset, (if (CI.mapOrb o n).1 = s then (1 : ℝ) else 0) =
      (if o = s then 1 else 0) + (if o = s + n then 1 else 0) := by
    intro o ho
    have hb := hd.bound o (List.mem_toFinset.1 ho)
    unfold CI.mapOrb
    by_cases h : o < n
    · rw [if_pos (Nat.div_eq_of_lt h)]
      have : o ≠ s + n := by omega
      simp [this]
    · have h1 : 0 < o / n := Nat.div_pos (by omega) (by omega)
      rw [if_neg (Nat.pos_iff_ne_zero.1 h1)]
      have h2 : o ≠ s := by omega
      have h3 : o - n = s ↔ o = s + n := by omega
      simp [h2, h3]
  rw [Finset.sum_congr rfl e, Finset.sum_add_distrib]
  simp

/-- Elements of the phonon operator between rows. -/
theorem bi_eq (hnb : 0 < sys.nbasis) (s : Fin sys.nbasis) (a b : Fin (np (grp sys nmax))) :
    bi nmax (grp sys nmax) s a b =
      if occ sys.nbasis ((perms (grp sys nmax)).getD b []) = Function.update
        (occ sys.nbasis ((perms (grp sys nmax)).getD a [])) s (occ sys.nbasis ((perms (grp sys nmax)).getD a []) s + 1)
      then Real.sqrt (occ sys.nbasis ((perms (grp sys nmax)).getD b []) s) else 0 := by
  unfold bi
  exact lower_eq hnb s (getD_some (perms (grp sys nmax)) a []) (getD_some (perms (grp sys nmax)) b [])

theorem hel_eq (hsym : Sym sys) (hds : Dets sys ds) (i j : Fin ds.length) : hel sys ds i j =
    CI.ham sys.nbasis sys.ecore sys.H1 sys.hijkl (ds.getD i []).toFinset (ds.getD j []).toFinset := by
  have hi := getD_mem ds i []
  have hj := getD_mem ds j []
  have cnt : ∀ d : List Nat, CI.Det sys.nbasis d →
      (d.toFinset.filter (· < sys.nbasis)).card = (d.filter (· < sys.nbasis)).length := by
    intro d hd
    rw [← List.toFinset_card_of_nodup (hd.nodup.filter _), List.toFinset_filter]
    simp
  have hsp : CI.SameSpins sys.nbasis (ds.getD i []) (ds.getD j []) :=
    ⟨by rw [hds.len _ hi, hds.len _ hj], by rw [cnt _ (hds.det _ hi), cnt _ (hds.det _ hj), hds.up _ hi, hds.up _ hj]⟩
  have hsp' : CI.SameSpins sys.nbasis (ds.getD j []) (ds.getD i []) := ⟨hsp.1.symm, hsp.2.symm⟩
  unfold hel CI.fciMatrix
  split_ifs
  · exact CI.hmatel sys hsym.exch hsym.bra hsym.one (hds.det _ hi) (hds.det _ hj) hsp (hds.len _ hi)
  · rw [(CI.hmatel_parts sys hsym.exch (hds.det _ hj) (hds.det _ hi) hsp' (hds.len _ hj)).1]

theorem kron_apply {a b : Nat} (A : Matrix (Fin a) (Fin a) ℝ) (B : Matrix (Fin b) (Fin b) ℝ) (k l : Fin (a * b)) :
    kron A B k l = A (finProdFinEquiv.symm k).1 (finProdFinEquiv.symm l).1 *
      B (finProdFinEquiv.symm k).2 (finProdFinEquiv.symm l).2 := rfl

/-- **C106**: an element of the matrix is the one of the Hamiltonian between the two basis states. -/
theorem matrix_element (hnb : 0 < sys.nbasis) (hsym : Sym sys) (hds : Dets sys ds)
    (k l : Fin (np (grp sys nmax) * ds.length)) : htot sys ph nmax (grp sys nmax) ds k l =
      hamOp sys.ecore sys.H1 sys.hijkl ph.w0 ph.g (space ds) (unit (basisOf sys nmax ds l)) (basisOf sys nmax ds k) := by
  set a := (finProdFinEquiv.symm k).1 with ha
  set i := (finProdFinEquiv.symm k).2 with hi
  set b := (finProdFinEquiv.symm l).1 with hb
  set j := (finProdFinEquiv.symm l).2 with hj
  have hk : basisOf sys nmax ds k = (occ sys.nbasis ((perms (grp sys nmax)).getD a []), (ds.getD i []).toFinset) := rfl
  have hl : basisOf sys nmax ds l = (occ sys.nbasis ((perms (grp sys nmax)).getD b []), (ds.getD j []).toFinset) := rfl
  have hpa := (mem_perms (nmax := nmax) hnb _).1 (getD_mem (perms (grp sys nmax)) a [])
  unfold htot hamOp
  rw [Matrix.add_apply, Matrix.add_apply, hk, hl]
  congr 1
  · congr 1
    · have hD : (ds.getD j []).toFinset ∈ space ds := by
        simp only [space, List.mem_toFinset, List.mem_map]
        exact ⟨_, getD_mem ds j [], rfl⟩
      rw [Finset.sum_eq_single_of_mem _ hD]
      · unfold he
        rw [kron_apply, ← ha, ← hi, ← hb, ← hj, hel_eq hsym hds, Matrix.one_apply, mul_comm]
        congr 1
        simp only [unit, Prod.mk.injEq, and_true, perms_inj hnb]
      · intro T _ hT
        simp only [unit, Prod.mk.injEq]
        rw [if_neg fun h => hT h.2, mul_zero]
    · simp only [number]
      rw [← Finset.sum_mul, ← Nat.cast_sum, sum_occ hpa.1]
      unfold hbos BoseCI.hb
      rw [kron_apply, ← ha, ← hi, ← hb, ← hj, Matrix.diagonal_apply, Matrix.one_apply]
      simp only [unit, Prod.mk.injEq, perms_inj hnb, dets_inj hds]
      by_cases h1 : a = b <;> by_cases h2 : i = j <;> simp [h1, h2]
  · unfold heb
    rw [Matrix.sum_apply, Finset.sum_range, Finset.mul_sum]
    refine Finset.sum_congr rfl fun s _ => ?_
    rw [Matrix.smul_apply, kron_apply, ← ha, ← hi, ← hb, ← hj, smul_eq_mul, Matrix.add_apply, Matrix.transpose_apply,
      bi_eq hnb, bi_eq hnb, bAnn_unit, bCre_unit]
    unfold rhoi
    rw [Matrix.diagonal_apply, rho_eq (hds.det _ (getD_mem ds i [])) s.2]
    simp only [dets_inj hds]
    by_cases h : i = j
    · simp only [h, and_true, if_true]
      ring
    · simp [h]

end

end Verif.BoseCI
