import Verif.KPoint.Model
import Verif.Files.FcidumpProps

/-!
# The FCIDUMP of a Hamiltonian with k-points (C110)
-/

namespace Verif.KPoint

open Files Finset

variable {nkp : Nat}

/-! ## Any list of lines -/

open Classical in
/-- Reading lines for a list of quadruples that has all integrals above the tolerance. -/
theorem read_list {n m : Nat} (rnd : ℝ → ℝ) (hodd : ∀ x, rnd (-x) = - rnd x) (hcore : Fin n → Fin n → ℂ)
    (hherm : ∀ i j, hcore j i = star (hcore i j)) (chol : Fin n → Fin n → Fin m → ℂ) (enuc : ℝ) (nelec : Nat × Nat)
    (tol : ℝ) (sym : Nat) (hs : sym = 1 ∨ sym = 4 ∨ sym = 8) (hsym : HasSym sym (eri chol)) (c : Bool)
    (qs : List (FQuad n)) (hmem : ∀ q, q ∈ qs ↔ tol < ‖at4 (eri chol) q‖ ∧ checkSym (nat q) n sym = true)
    (ps : List (Fin n × Fin n)) (hps : ∀ i j, (i, j) ∈ ps ↔ j ≤ i ∧ tol < ‖hcore i j‖) :
    ∃ r, readFcidump ⟨n, nelec.1 + nelec.2, nelec.1 - nelec.2,
        (qs.map fun q => fmt rnd (at4 (eri chol) q) (up (nat q)) c false) ++
          (ps.map fun p => fmt rnd (hcore p.1 p.2) (p.1 + 1, p.2 + 1, 0, 0) c false) ++ [fmt rnd enuc (0, 0, 0, 0) c false]⟩ sym = some r ∧
      (∀ i k j l : Fin n, r.h2 (i, k, j, l) = if tol < ‖eri chol i k j l‖ then arrives rnd c (eri chol i k j l) else 0) ∧
      (∀ i j : Fin n, r.h1 i j = if tol < ‖hcore i j‖ then arrives rnd c (hcore i j) else 0) ∧
      r.ecore = (rnd enuc : ℂ) ∧ r.nelec = ((nelec.1 : ℤ), (nelec.2 : ℤ)) := by
  let as2 := qs.flatMap fun q => assigns sym (nat q) (arrives rnd c (at4 (eri chol) q))
  let as1 := ps.map fun p => ((p.1 : Nat), (p.2 : Nat), arrives rnd c (hcore p.1 p.2))
  have he : arrives rnd c (enuc : ℂ) = (rnd enuc : ℂ) := by
    cases c
    · simp [arrives]
    · apply Complex.ext <;> simp [arrives, rnd_zero rnd hodd]
  refine ⟨⟨set1All (fun _ _ => 0) as1, setAll (fun _ => 0) as2, arrives rnd c (enuc : ℂ), ((nelec.1 : ℤ), (nelec.2 : ℤ))⟩,
    ?_, ?_, ?_, he, rfl⟩
  · unfold readFcidump
    rw [if_pos hs]
    simp only
    rw [readLines_append, readLines_append, readLines_eri, Option.bind_some, readLines_one, Option.bind_some]
    have hl : ∀ st : RSt, readLines n sym st [fmt rnd enuc (0, 0, 0, 0) c false] =
        some { st with ecore := some (arrives rnd c (enuc : ℂ)) } := by
      intro st
      cases c <;> simp [readLines, readLine, fmt, arrives]
    rw [hl]
    simp only [Option.bind_some, Option.map_some]
    congr 2
    refine Prod.ext ?_ ?_ <;> simp only <;> omega
  · intro i k j l
    have hall : ∀ a ∈ as2, a.1 = nat (i, k, j, l) → a.2 = arrives rnd c (eri chol i k j l) := by
      intro a ha h1
      obtain ⟨q, -, h2⟩ := List.mem_flatMap.1 ha
      refine (assigns_value rnd hodd c chol sym hsym hs q (i, k, j, l) a.2 ?_).1
      rw [← h1]
      exact h2
    have := setAll_spec (nat (i, k, j, l)) _ as2 (fun _ => 0) hall
    show setAll _ as2 (nat (i, k, j, l)) = _
    rw [this]
    refine if_congr ?_ rfl rfl
    constructor
    · intro h
      obtain ⟨a, ha, h1⟩ := List.mem_map.1 h
      obtain ⟨q, hq, h2⟩ := List.mem_flatMap.1 ha
      have := (assigns_value rnd hodd c chol sym hsym hs q (i, k, j, l) a.2 (by rw [← h1]; exact h2)).2
      rw [show eri chol i k j l = at4 (eri chol) (i, k, j, l) from rfl, ← this]
      exact ((hmem q).1 hq).1
    · intro h
      obtain ⟨q, h1, h2⟩ := covered sym hs (i, k, j, l)
      have h3 := h2
      rw [← assigns_keys sym (nat q) (arrives rnd c (at4 (eri chol) q))] at h3
      obtain ⟨a, ha, h4⟩ := List.mem_map.1 h3
      have h5 := (assigns_value rnd hodd c chol sym hsym hs q (i, k, j, l) a.2 (by rw [← h4]; exact ha)).2
      refine List.mem_map.2 ⟨a, List.mem_flatMap.2 ⟨q, (hmem q).2 ⟨?_, h1⟩, ha⟩, h4⟩
      rw [h5]
      exact h
  · intro i j
    have hstar : ∀ i j, arrives rnd c (hcore j i) = star (arrives rnd c (hcore i j)) := fun i j => by
      rw [hherm i j, arrives_star rnd hodd]
    have hnorm : ‖hcore j i‖ = ‖hcore i j‖ := by rw [hherm i j, norm_star]
    have hall : ∀ x ∈ as1, (x.1 = i ∧ x.2.1 = j → x.2.2 = arrives rnd c (hcore i j)) ∧
        (x.2.1 = i ∧ x.1 = j → star x.2.2 = arrives rnd c (hcore i j)) := by
      intro x hx
      obtain ⟨⟨a, b⟩, -, rfl⟩ := List.mem_map.1 hx
      refine ⟨fun h => ?_, fun h => ?_⟩
      · rw [Fin.ext h.1, Fin.ext h.2]
      · rw [Fin.ext h.1, Fin.ext h.2, hstar j i]
    have hsp := set1All_spec i j (arrives rnd c (hcore i j)) as1 (fun _ _ => 0) hall
    have hex : (∃ x ∈ as1, (x.1 = i ∧ x.2.1 = j) ∨ (x.2.1 = i ∧ x.1 = j)) ↔ tol < ‖hcore i j‖ := by
      constructor
      · rintro ⟨x, hx, h⟩
        obtain ⟨⟨a, b⟩, hab, rfl⟩ := List.mem_map.1 hx
        have := ((hps a b).1 hab).2
        rcases h with h | h
        · have e1 : a = i := Fin.ext h.1
          have e2 : b = j := Fin.ext h.2
          rw [e1, e2] at this; exact this
        · have e1 : b = i := Fin.ext h.1
          have e2 : a = j := Fin.ext h.2
          rw [e1, e2, hnorm] at this; exact this
      · intro h
        rcases le_total j i with h1 | h1
        · exact ⟨_, List.mem_map.2 ⟨(i, j), (hps i j).2 ⟨h1, h⟩, rfl⟩, Or.inl ⟨rfl, rfl⟩⟩
        · exact ⟨_, List.mem_map.2 ⟨(j, i), (hps j i).2 ⟨h1, by rw [hnorm]; exact h⟩, rfl⟩,
            Or.inr ⟨rfl, rfl⟩⟩
    show set1All _ as1 i j = _
    by_cases h : tol < ‖hcore i j‖
    · rw [if_pos h]; exact hsp.1 (hex.2 h)
    · rw [if_neg h]; exact hsp.2 fun h1 => h (hex.1 h1)

/-! ## Orbitals -/

/-- An orbital: a k-point and a number. -/
abbrev Orb (y : Sizes nkp) := (k : Fin nkp) × Fin (y.nmo k)

/-- The number of orbitals. -/
abbrev total (y : Sizes nkp) : Nat := ∑ k, y.nmo k

/-- Its number in the file, from zero: the orbitals of the k-points before come first. -/
def num (y : Sizes nkp) (a : Orb y) : Fin (total y) := finSigmaFinEquiv a

theorem offset_sum (nmo : Fin nkp → Nat) : ∀ k (h : k ≤ nkp), offset nmo k = ∑ j : Fin k, nmo (Fin.castLE h j)
  | 0, _ => by simp [offset]
  | k + 1, h => by
    rw [offset, Fin.sum_univ_castSucc, offset_sum nmo k (by omega), dif_pos (by omega)]
    rfl

theorem num_val (y : Sizes nkp) (k : Fin nkp) (i : Fin (y.nmo k)) : (i : Nat) + offset y.nmo k = (num y ⟨k, i⟩ : Nat) := by
  rw [num, finSigmaFinEquiv_apply, offset_sum _ _ k.2.le, add_comm]

/-- The integral `(ab|cd)` of the factorisation: vectors of the momentum transfer between `a` and `b`. -/
noncomputable def kEri (y : Sizes nkp) (L : Fin nkp → Fin nkp → Nat → Nat → ℂ) (a b c d : Orb y) : ℂ :=
  ∑ Q, if y.qk Q a.1 = b.1 ∧ y.qk Q d.1 = c.1 then
    ∑ n : Fin (y.nchol Q), L Q a.1 (a.2 * y.nmo b.1 + b.2) n * star (L Q d.1 (d.2 * y.nmo c.1 + c.2) n) else 0

/-- A vector at a pair of orbitals: zero if the momentum transfer is another. -/
noncomputable def vecAt (y : Sizes nkp) (L : Fin nkp → Fin nkp → Nat → Nat → ℂ) (a b : Orb y) (q : (Q : Fin nkp) × Fin (y.nchol Q)) : ℂ :=
  if y.qk q.1 a.1 = b.1 then L q.1 a.1 (a.2 * y.nmo b.1 + b.2) q.2 else 0

/-- The vectors as one dense table. -/
noncomputable def dense (y : Sizes nkp) (L : Fin nkp → Fin nkp → Nat → Nat → ℂ) :
    Fin (total y) → Fin (total y) → Fin (∑ Q, y.nchol Q) → ℂ := fun I K x =>
  vecAt y L (finSigmaFinEquiv.symm I) (finSigmaFinEquiv.symm K) (finSigmaFinEquiv.symm x)

theorem eri_dense (y : Sizes nkp) (L : Fin nkp → Fin nkp → Nat → Nat → ℂ) (a b c d : Orb y) :
    eri (dense y L) (num y a) (num y b) (num y c) (num y d) = kEri y L a b c d := by
  rw [eri, ← finSigmaFinEquiv.sum_comp, Fintype.sum_sigma, kEri]
  refine sum_congr rfl fun Q _ => ?_
  simp only [dense, num, Equiv.symm_apply_apply]
  simp only [vecAt]
  by_cases h1 : y.qk Q a.1 = b.1 <;> by_cases h2 : y.qk Q d.1 = c.1 <;> simp [h1, h2]

/-- The one-electron integrals: zero between different k-points. -/
noncomputable def coreAt (y : Sizes nkp) (h : Fin nkp → Nat → Nat → ℂ) (a b : Orb y) : ℂ := if a.1 = b.1 then h a.1 a.2 b.2 else 0

/-- The one-electron integrals as one matrix. -/
noncomputable def denseCore (y : Sizes nkp) (h : Fin nkp → Nat → Nat → ℂ) : Fin (total y) → Fin (total y) → ℂ := fun I J =>
  coreAt y h (finSigmaFinEquiv.symm I) (finSigmaFinEquiv.symm J)

/-! ## The loops -/

theorem pairs_getElem? (a b c : Nat) (i : Fin a) (k : Fin b) :
    ((List.finRange a).flatMap fun i => (List.finRange b).map fun k => (i, k))[c]? = some (i, k) ↔ c = i * b + k := by
  have e : ((List.finRange a).flatMap fun i => (List.finRange b).map fun k => (i, k)) =
      List.ofFn (fun x : Fin (a * b) => (x.divNat, x.modNat)) := by
    rw [List.ofFn_mul, List.flatMap_def, List.ofFn_eq_map]
    congr 2
    funext i
    rw [List.ofFn_eq_map]
    congr 1
    funext k
    simp only [Prod.mk.injEq]
    have hb : 0 < b := by have := k.2; omega
    constructor
    · apply Fin.ext
      simp [Fin.divNat, Nat.add_div_of_dvd_right (Dvd.intro_left _ rfl : b ∣ i * b), Nat.mul_div_cancel _ hb, Nat.div_eq_of_lt k.2]
    · apply Fin.ext
      simp [Fin.modNat, Nat.mod_eq_of_lt k.2]
  rw [e, List.getElem?_ofFn]
  constructor
  · intro h
    split_ifs at h with hc
    have h := Option.some.inj h
    rw [Prod.mk.injEq, Fin.ext_iff, Fin.ext_iff] at h
    simp only [Fin.divNat, Fin.modNat] at h
    rw [← h.1, ← h.2, Nat.div_add_mod']
  · rintro rfl
    have hb : 0 < b := by have := k.2; omega
    have hlt : (i : Nat) * b + k < a * b := by
      have h1 := i.2
      have h2 := k.2
      calc (i : Nat) * b + k < i * b + b := by omega
        _ = (i + 1) * b := by ring
        _ ≤ a * b := Nat.mul_le_mul_right _ h1
    rw [dif_pos hlt]
    congr 1
    rw [Prod.mk.injEq, Fin.ext_iff, Fin.ext_iff]
    constructor
    · simp [Fin.divNat, Nat.add_div_of_dvd_right (Dvd.intro_left _ rfl : b ∣ i * b), Nat.mul_div_cancel _ hb, Nat.div_eq_of_lt k.2]
    · simp [Fin.modNat, Nat.mod_eq_of_lt k.2]

theorem mem_pairsK (a b c : Nat) (i : Fin a) (k : Fin b) : ((i, k), c) ∈ pairsK a b ↔ c = i * b + k := by
  rw [pairsK, List.mk_mem_zipIdx_iff_getElem?, pairs_getElem?]

/-- The numbers of the orbitals of a block and their places in `eri`. -/
theorem mem_block (y : Sizes nkp) (Q ki kl : Fin nkp) (b : Quad × Nat × Nat) : b ∈ block y Q ki kl ↔
    ∃ (i : Fin (y.nmo ki)) (k : Fin (y.nmo (y.qk Q ki))) (j : Fin (y.nmo (y.qk Q kl))) (l : Fin (y.nmo kl)),
      b = (nat (num y ⟨ki, i⟩, num y ⟨_, k⟩, num y ⟨_, j⟩, num y ⟨kl, l⟩), i * y.nmo (y.qk Q ki) + k, l * y.nmo (y.qk Q kl) + j) := by
  simp only [block, List.mem_flatMap, List.mem_map]
  constructor
  · rintro ⟨⟨⟨i, k⟩, c⟩, hp, ⟨⟨l, j⟩, d⟩, hr, rfl⟩
    rw [mem_pairsK] at hp hr
    refine ⟨i, k, j, l, ?_⟩
    simp only [num_val, hp, hr, nat]
  · rintro ⟨i, k, j, l, rfl⟩
    refine ⟨⟨⟨i, k⟩, _⟩, (mem_pairsK _ _ _ _ _).2 rfl, ⟨⟨l, j⟩, _⟩, (mem_pairsK _ _ _ _ _).2 rfl, ?_⟩
    simp only [num_val, nat]

theorem collect_some {α β : Type} (f : α → Option (List β)) (g : α → List β) : ∀ l : List α, (∀ a ∈ l, f a = some (g a)) →
    collect f l = some (l.flatMap g)
  | [], _ => rfl
  | a :: l, h => by
    rw [collect, h a (by simp), Option.bind_some, collect_some f g l fun b hb => h b (List.mem_cons_of_mem _ hb), Option.map_some,
      List.flatMap_cons]

theorem collect_none {α β : Type} (f : α → Option (List β)) : ∀ l : List α, (∃ a ∈ l, f a = none) → collect f l = none
  | [], h => by obtain ⟨a, h, -⟩ := h; simp at h
  | a :: l, h => by
    rw [collect]
    obtain ⟨b, hb, e⟩ := h
    rcases List.mem_cons.1 hb with rfl | hb
    · rw [e]; rfl
    · rw [collect_none f l ⟨b, hb, e⟩]
      cases f a <;> rfl

end Verif.KPoint
