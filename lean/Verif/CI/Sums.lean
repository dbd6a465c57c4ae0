import Verif.CI.Fock

/-!
# Matrix elements of the Hamiltonian, case by case

The sums over all spin orbitals of the specification, for equal states and for single and double excitations.
-/

namespace Verif.CI

variable {K : Type*} [Field K]

theorem pair_iff {T : Finset Nat} {p q x y : Nat} (hp : p ∈ T) (hq : q ∈ T) (hx : x ∈ T) (hy : y ∈ T) (hpq : p ≠ q)
    (hxy : x ≠ y) : (T.erase p).erase q = (T.erase x).erase y ↔ (p = x ∧ q = y) ∨ (p = y ∧ q = x) := by
  constructor
  · intro h
    have h1 : x ∉ (T.erase p).erase q := by rw [h]; simp
    have h2 : y ∉ (T.erase p).erase q := by rw [h]; simp
    simp only [Finset.mem_erase, hx, hy, and_true, not_and, not_not] at h1 h2
    by_cases hxq : x = q
    · by_cases hyq : y = q
      · exact absurd (hxq.trans hyq.symm) hxy
      · exact Or.inr ⟨(h2 hyq).symm, hxq.symm⟩
    · by_cases hyq : y = q
      · exact Or.inl ⟨(h1 hxq).symm, hyq.symm⟩
      · exact absurd ((h1 hxq).trans (h2 hyq).symm) hxy
  · rintro (⟨rfl, rfl⟩ | ⟨rfl, rfl⟩)
    · rfl
    · exact Finset.erase_right_comm

/-- The sum over the created pair, when it exists: the pair in both orders. -/
theorem inner_sum (R T S : Finset Nat) (hT : T ⊆ R) (W : Nat → Nat → K) {x y r s : Nat} (hx : x ∈ T) (hy : y ∈ T)
    (hxy : x ≠ y) (hr : r ∈ S) (hs : s ∈ S) (hrs : r ≠ s) (heq : (T.erase x).erase y = (S.erase r).erase s) :
    ∑ p ∈ R, ∑ q ∈ R, W p q * (inner T (cre p (cre q (ann s (ann r (ket S))))) : K) =
      (W x y - W y x) * ((sg2 T x y * sg2 S r s : ℤ) : K) := by
  have key : ∀ p q, W p q * (inner T (cre p (cre q (ann s (ann r (ket S))))) : K) =
      (if p = x then if q = y then W x y * ((sg2 T x y * sg2 S r s : ℤ) : K) else 0 else 0) +
        (if p = y then if q = x then - (W y x * ((sg2 T x y * sg2 S r s : ℤ) : K)) else 0 else 0) := by
    intro p q
    rw [two_elem]
    by_cases h : (p = x ∧ q = y) ∨ (p = y ∧ q = x)
    · rcases h with ⟨rfl, rfl⟩ | ⟨rfl, rfl⟩
      · rw [if_pos ⟨⟨hx, hy, hxy⟩, ⟨hr, hs, hrs⟩, heq⟩]
        simp [hxy]
      · rw [if_pos ⟨⟨hy, hx, Ne.symm hxy⟩, ⟨hr, hs, hrs⟩, by rw [← heq]; exact Finset.erase_right_comm⟩,
          sg2_swap hx hy hxy]
        simp [Ne.symm hxy]
    · rw [if_neg]
      · have h1 : ¬ (p = x ∧ q = y) := fun hc => h (Or.inl hc)
        have h2 : ¬ (p = y ∧ q = x) := fun hc => h (Or.inr hc)
        simp only [← ite_and, if_neg h1, if_neg h2]
        simp
      · rintro ⟨⟨h1, h2, h3⟩, -, h5⟩
        rw [← heq] at h5
        exact h ((pair_iff h1 h2 hx hy h3 hxy).1 h5)
  simp only [key, Finset.sum_add_distrib]
  have e1 : ∀ A : K, ∀ x ∈ R, ∀ y ∈ R, ∑ p ∈ R, ∑ q ∈ R, (if p = x then if q = y then A else 0 else 0) = A := by
    intro A x hx y hy
    rw [Finset.sum_eq_single_of_mem x hx, Finset.sum_eq_single_of_mem y hy]
    · simp
    · intro q _ hq; simp [hq]
    · intro p _ hp; simp [hp]
  rw [e1 _ x (hT hx) y (hT hy), e1 _ y (hT hy) x (hT hx)]
  ring

/-- No created pair. -/
theorem inner_none (R T S : Finset Nat) (W : Nat → Nat → K) {r s : Nat}
    (h : ∀ p q, p ∈ T → q ∈ T → p ≠ q → r ∈ S → s ∈ S → r ≠ s → (T.erase p).erase q ≠ (S.erase r).erase s) :
    ∑ p ∈ R, ∑ q ∈ R, W p q * (inner T (cre p (cre q (ann s (ann r (ket S))))) : K) = 0 := by
  apply Finset.sum_eq_zero
  intro p _
  apply Finset.sum_eq_zero
  intro q _
  rw [two_elem, if_neg]
  · simp
  · rintro ⟨⟨h1, h2, h3⟩, ⟨h4, h5, h6⟩, h7⟩
    exact h p q h1 h2 h3 h4 h5 h6 h7

/-! ### Equal states -/

theorem one_same (n : Nat) (h : Nat → Nat → K) (S : Finset Nat) (hS : S ⊆ Finset.range (2 * n)) :
    oneBody n h S S = ∑ p ∈ S, h1 n h p p := by
  unfold oneBody
  rw [← Finset.sum_subset hS]
  · apply Finset.sum_congr rfl
    intro p hp
    rw [Finset.sum_eq_single_of_mem p (hS hp)]
    · rw [one_elem, if_pos ⟨hp, hp, rfl⟩, sgn_mul_self]
      simp
    · intro q _ hq
      rw [one_elem, if_neg]
      · simp
      · rintro ⟨h1, h2, h3⟩
        have : p ∈ S.erase q := by simp [hp, Ne.symm hq]
        rw [← h3] at this
        simp at this
  · intro p _ hp
    apply Finset.sum_eq_zero
    intro q _
    rw [one_elem, if_neg (fun hc => hp hc.1)]
    simp

theorem two_same (n : Nat) (V : Nat → Nat → Nat → Nat → K) (S : Finset Nat) (hS : S ⊆ Finset.range (2 * n)) :
    twoBody n V S S = 1 / 2 * ∑ r ∈ S, ∑ s ∈ S.erase r, (v2 n V r s r s - v2 n V s r r s) := by
  unfold twoBody
  congr 1
  rw [← Finset.sum_subset hS]
  · apply Finset.sum_congr rfl
    intro r hr
    rw [← Finset.sum_subset ((Finset.erase_subset r S).trans hS)]
    · apply Finset.sum_congr rfl
      intro s hs
      rw [Finset.mem_erase] at hs
      rw [inner_sum (Finset.range (2 * n)) S S hS (fun p q => v2 n V p q r s) hr hs.2 (Ne.symm hs.1) hr hs.2
        (Ne.symm hs.1) rfl, sg2_sq]
      simp
    · intro s _ hs
      apply inner_none
      intro p q _ _ _ h4 h5 h6
      exact absurd (Finset.mem_erase.2 ⟨Ne.symm h6, h5⟩) hs
  · intro r _ hr
    apply Finset.sum_eq_zero
    intro s _
    apply inner_none
    intro p q _ _ _ h4
    exact absurd h4 hr

/-! ### One excitation -/

section Single

variable {T S : Finset Nat} {i a : Nat}

/-- `T` is obtained from `S` by moving an electron from `a` to `i`. -/
structure Single (T S : Finset Nat) (i a : Nat) : Prop where
  iT : i ∈ T
  aS : a ∈ S
  iS : i ∉ S
  aT : a ∉ T
  core : T.erase i = S.erase a

theorem Single.of_diff (h1 : T \ S = {i}) (h2 : S \ T = {a}) : Single T S i a := by
  have m1 : ∀ x, (x ∈ T ∧ x ∉ S) ↔ x = i := fun x => by rw [← Finset.mem_sdiff, h1, Finset.mem_singleton]
  have m2 : ∀ x, (x ∈ S ∧ x ∉ T) ↔ x = a := fun x => by rw [← Finset.mem_sdiff, h2, Finset.mem_singleton]
  refine ⟨((m1 i).2 rfl).1, ((m2 a).2 rfl).1, ((m1 i).2 rfl).2, ((m2 a).2 rfl).2, ?_⟩
  ext x
  simp only [Finset.mem_erase]
  have e1 := m1 x
  have e2 := m2 x
  tauto

theorem one_single (n : Nat) (h : Nat → Nat → K) (hs : Single T S i a) (hT : T ⊆ Finset.range (2 * n))
    (hS : S ⊆ Finset.range (2 * n)) : oneBody n h T S = h1 n h i a * ((sgn i T * sgn a S : ℤ) : K) := by
  have zero : ∀ p q, ¬ (p = i ∧ q = a) → inner T (cre p (ann q (ket S))) = 0 := by
    intro p q hn
    rw [one_elem, if_neg]
    rintro ⟨hp, hq, he⟩
    have hpi : i = p := by
      by_contra hc
      have : i ∈ S.erase q := by rw [← he]; exact Finset.mem_erase.2 ⟨hc, hs.iT⟩
      exact hs.iS (Finset.mem_of_mem_erase this)
    have hqa : a = q := by
      by_contra hc
      have : a ∈ T.erase p := by rw [he]; exact Finset.mem_erase.2 ⟨hc, hs.aS⟩
      exact hs.aT (Finset.mem_of_mem_erase this)
    exact hn ⟨hpi.symm, hqa.symm⟩
  unfold oneBody
  rw [Finset.sum_eq_single_of_mem i (hT hs.iT), Finset.sum_eq_single_of_mem a (hS hs.aS)]
  · rw [one_elem, if_pos ⟨hs.iT, hs.aS, hs.core⟩]
  · intro q _ hq
    rw [zero i q fun hc => hq hc.2]
    simp
  · intro p _ hp
    apply Finset.sum_eq_zero
    intro q _
    rw [zero p q fun hc => hp hc.1]
    simp

theorem two_single (n : Nat) (V : Nat → Nat → Nat → Nat → K) (hs : Single T S i a) (hT : T ⊆ Finset.range (2 * n))
    (hS : S ⊆ Finset.range (2 * n)) : twoBody n V T S = 1 / 2 * (∑ k ∈ S.erase a,
      ((v2 n V i k a k - v2 n V k i a k) + (v2 n V k i k a - v2 n V i k k a))) * ((sgn i T * sgn a S : ℤ) : K) := by
  have memC : ∀ k, k ∈ S.erase a → k ∈ T ∧ k ∈ S ∧ k ≠ i ∧ k ≠ a := by
    intro k hk
    have h1 := hk
    rw [← hs.core] at h1
    rw [Finset.mem_erase] at hk h1
    exact ⟨h1.2, hk.2, h1.1, hk.1⟩
  have eA : ∀ k ∈ S.erase a, ∑ p ∈ Finset.range (2 * n), ∑ q ∈ Finset.range (2 * n),
      v2 n V p q a k * (inner T (cre p (cre q (ann k (ann a (ket S))))) : K) =
      (v2 n V i k a k - v2 n V k i a k) * ((sgn i T * sgn a S : ℤ) : K) := by
    intro k hk
    obtain ⟨h1, h2, h3, h4⟩ := memC k hk
    rw [inner_sum (Finset.range (2 * n)) T S hT (fun p q => v2 n V p q a k) hs.iT h1 (Ne.symm h3) hs.aS h2 (Ne.symm h4)
      (by rw [hs.core])]
    congr 2
    unfold sg2
    rw [hs.core]
    have := sgn_mul_self k (S.erase a)
    calc _ = sgn i T * sgn a S * (sgn k (S.erase a) * sgn k (S.erase a)) := by ring
      _ = _ := by rw [this, mul_one]
  have eB : ∀ k ∈ S.erase a, ∑ p ∈ Finset.range (2 * n), ∑ q ∈ Finset.range (2 * n),
      v2 n V p q k a * (inner T (cre p (cre q (ann a (ann k (ket S))))) : K) =
      (v2 n V k i k a - v2 n V i k k a) * ((sgn i T * sgn a S : ℤ) : K) := by
    intro k hk
    obtain ⟨h1, h2, h3, h4⟩ := memC k hk
    rw [inner_sum (Finset.range (2 * n)) T S hT (fun p q => v2 n V p q k a) h1 hs.iT h3 h2 hs.aS h4 (by
      rw [Finset.erase_right_comm, hs.core, Finset.erase_right_comm]), sg2_swap hs.iT h1 (Ne.symm h3),
      sg2_swap hs.aS h2 (Ne.symm h4), neg_mul_neg]
    congr 2
    unfold sg2
    rw [hs.core]
    have := sgn_mul_self k (S.erase a)
    calc _ = sgn i T * sgn a S * (sgn k (S.erase a) * sgn k (S.erase a)) := by ring
      _ = _ := by rw [this, mul_one]
  have eN : ∀ r s, ¬ (r = a ∧ s ∈ S.erase a) → ¬ (s = a ∧ r ∈ S.erase a) →
      ∑ p ∈ Finset.range (2 * n), ∑ q ∈ Finset.range (2 * n),
      v2 n V p q r s * (inner T (cre p (cre q (ann s (ann r (ket S))))) : K) = 0 := by
    intro r s hn1 hn2
    apply inner_none
    intro p q _ _ _ h4 h5 h6 he
    have hra : r ≠ a := fun hc => hn1 ⟨hc, Finset.mem_erase.2 ⟨by rw [← hc]; exact Ne.symm h6, h5⟩⟩
    have hsa : s ≠ a := fun hc => hn2 ⟨hc, Finset.mem_erase.2 ⟨hra, h4⟩⟩
    have : a ∈ (T.erase p).erase q := by
      rw [he]; simp [hs.aS, Ne.symm hra, Ne.symm hsa]
    exact hs.aT (Finset.mem_of_mem_erase (Finset.mem_of_mem_erase this))
  unfold twoBody
  rw [mul_assoc, Finset.sum_mul]
  congr 1
  have hSi : S = insert a (S.erase a) := (Finset.insert_erase hs.aS).symm
  have hCR : S.erase a ⊆ Finset.range (2 * n) := (Finset.erase_subset a S).trans hS
  rw [← Finset.sum_subset hS, hSi, Finset.sum_insert (Finset.notMem_erase a S), ← hSi]
  · have hA : ∑ s ∈ Finset.range (2 * n), ∑ p ∈ Finset.range (2 * n), ∑ q ∈ Finset.range (2 * n),
        v2 n V p q a s * (inner T (cre p (cre q (ann s (ann a (ket S))))) : K) =
        ∑ k ∈ S.erase a, (v2 n V i k a k - v2 n V k i a k) * ((sgn i T * sgn a S : ℤ) : K) := by
      rw [← Finset.sum_subset hCR]
      · exact Finset.sum_congr rfl eA
      · intro s _ hsn
        exact eN a s (fun hc => hsn hc.2) (fun hc => absurd hc.2 (Finset.notMem_erase a S))
    have hB : ∀ r ∈ S.erase a, ∑ s ∈ Finset.range (2 * n), ∑ p ∈ Finset.range (2 * n), ∑ q ∈ Finset.range (2 * n),
        v2 n V p q r s * (inner T (cre p (cre q (ann s (ann r (ket S))))) : K) =
        (v2 n V r i r a - v2 n V i r r a) * ((sgn i T * sgn a S : ℤ) : K) := by
      intro r hr
      rw [Finset.sum_eq_single_of_mem a (hS hs.aS), eB r hr]
      intro s _ hsa
      exact eN r s (fun hc => (Finset.ne_of_mem_erase hr) hc.1) (fun hc => hsa hc.1)
    rw [hA, Finset.sum_congr rfl hB, ← Finset.sum_add_distrib]
    apply Finset.sum_congr rfl
    intro k _
    ring
  · intro r _ hr
    apply Finset.sum_eq_zero
    intro s _
    exact eN r s (fun hc => hr (by rw [hc.1]; exact hs.aS)) (fun hc => hr (Finset.mem_of_mem_erase hc.2))

end Single

/-! ### Two excitations -/

/-- `T` is obtained from `S` by moving two electrons from `a`, `b` to `i`, `j`. -/
structure Double (T S : Finset Nat) (i j a b : Nat) : Prop where
  iT : i ∈ T
  jT : j ∈ T
  aS : a ∈ S
  bS : b ∈ S
  iS : i ∉ S
  jS : j ∉ S
  aT : a ∉ T
  bT : b ∉ T
  ij : i ≠ j
  ab : a ≠ b
  core : (T.erase i).erase j = (S.erase a).erase b

theorem Double.of_diff {T S : Finset Nat} {i j a b : Nat} (hij : i ≠ j) (hab : a ≠ b) (h1 : T \ S = {i, j})
    (h2 : S \ T = {a, b}) : Double T S i j a b := by
  have m1 : ∀ x, (x ∈ T ∧ x ∉ S) ↔ x = i ∨ x = j := fun x => by
    rw [← Finset.mem_sdiff, h1, Finset.mem_insert, Finset.mem_singleton]
  have m2 : ∀ x, (x ∈ S ∧ x ∉ T) ↔ x = a ∨ x = b := fun x => by
    rw [← Finset.mem_sdiff, h2, Finset.mem_insert, Finset.mem_singleton]
  have mi := (m1 i).2 (Or.inl rfl)
  have mj := (m1 j).2 (Or.inr rfl)
  have ma := (m2 a).2 (Or.inl rfl)
  have mb := (m2 b).2 (Or.inr rfl)
  refine ⟨mi.1, mj.1, ma.1, mb.1, mi.2, mj.2, ma.2, mb.2, hij, hab, ?_⟩
  ext x
  simp only [Finset.mem_erase]
  have e1 := m1 x
  have e2 := m2 x
  tauto

theorem two_double (n : Nat) (V : Nat → Nat → Nat → Nat → K) {T S : Finset Nat} {i j a b : Nat} (hs : Double T S i j a b)
    (hT : T ⊆ Finset.range (2 * n)) (hS : S ⊆ Finset.range (2 * n)) :
    twoBody n V T S = 1 / 2 * ((v2 n V i j a b - v2 n V j i a b) + (v2 n V j i b a - v2 n V i j b a)) *
      ((sg2 T i j * sg2 S a b : ℤ) : K) := by
  have eN : ∀ r s, ¬ (r = a ∧ s = b) → ¬ (r = b ∧ s = a) →
      ∑ p ∈ Finset.range (2 * n), ∑ q ∈ Finset.range (2 * n),
      v2 n V p q r s * (inner T (cre p (cre q (ann s (ann r (ket S))))) : K) = 0 := by
    intro r s hn1 hn2
    apply inner_none
    intro p q _ _ _ h4 h5 h6 he
    have gone : ∀ x ∈ S, x ∉ T → x = r ∨ x = s := by
      intro x hx hxT
      by_contra hc
      push Not at hc
      have : x ∈ (T.erase p).erase q := by rw [he]; simp [hx, hc.1, hc.2]
      exact hxT (Finset.mem_of_mem_erase (Finset.mem_of_mem_erase this))
    rcases gone a hs.aS hs.aT with ha | ha <;> rcases gone b hs.bS hs.bT with hb | hb
    · exact hs.ab (ha.trans hb.symm)
    · exact hn1 ⟨ha.symm, hb.symm⟩
    · exact hn2 ⟨hb.symm, ha.symm⟩
    · exact hs.ab (ha.trans hb.symm)
  unfold twoBody
  rw [mul_assoc]
  congr 1
  have hsub : ({a, b} : Finset Nat) ⊆ Finset.range (2 * n) := by
    intro x hx
    rw [Finset.mem_insert, Finset.mem_singleton] at hx
    rcases hx with rfl | rfl
    · exact hS hs.aS
    · exact hS hs.bS
  let F : Nat → Nat → K := fun r s => ∑ p ∈ Finset.range (2 * n), ∑ q ∈ Finset.range (2 * n),
    v2 n V p q r s * (inner T (cre p (cre q (ann s (ann r (ket S))))) : K)
  have hA : ∑ s ∈ Finset.range (2 * n), F a s = F a b := Finset.sum_eq_single_of_mem b (hS hs.bS) fun s _ hsn =>
    eN a s (fun hc => hsn hc.2) (fun hc => hs.ab hc.1)
  have hB : ∑ s ∈ Finset.range (2 * n), F b s = F b a := Finset.sum_eq_single_of_mem a (hS hs.aS) fun s _ hsn =>
    eN b s (fun hc => hs.ab hc.1.symm) (fun hc => hsn hc.2)
  show ∑ r ∈ Finset.range (2 * n), ∑ s ∈ Finset.range (2 * n), F r s = _
  rw [← Finset.sum_subset hsub, Finset.sum_pair hs.ab, hA, hB]
  · simp only [F]
    rw [inner_sum (Finset.range (2 * n)) T S hT (fun p q => v2 n V p q a b) hs.iT hs.jT hs.ij hs.aS hs.bS hs.ab hs.core,
      inner_sum (Finset.range (2 * n)) T S hT (fun p q => v2 n V p q b a) hs.jT hs.iT (Ne.symm hs.ij) hs.bS hs.aS
        (Ne.symm hs.ab) (by rw [Finset.erase_right_comm, hs.core, Finset.erase_right_comm]),
      sg2_swap hs.iT hs.jT hs.ij, sg2_swap hs.aS hs.bS hs.ab, neg_mul_neg]
    ring
  · intro r _ hr
    apply Finset.sum_eq_zero
    intro s _
    rw [Finset.mem_insert, Finset.mem_singleton] at hr
    exact eN r s (fun hc => hr (Or.inl hc.1)) (fun hc => hr (Or.inr hc.1))

/-! ### More excitations -/

theorem one_zero (n : Nat) (h : Nat → Nat → K) (T S : Finset Nat) (hc : 2 ≤ (T \ S).card) : oneBody n h T S = 0 := by
  unfold oneBody
  apply Finset.sum_eq_zero
  intro p _
  apply Finset.sum_eq_zero
  intro q _
  rw [one_elem, if_neg]
  · simp
  · rintro ⟨-, -, he⟩
    have hsub : T \ S ⊆ {p} := by
      intro x hx
      rw [Finset.mem_sdiff] at hx
      rw [Finset.mem_singleton]
      by_contra hxp
      have : x ∈ S.erase q := by rw [← he]; exact Finset.mem_erase.2 ⟨hxp, hx.1⟩
      exact hx.2 (Finset.mem_of_mem_erase this)
    have := Finset.card_le_card hsub
    simp at this
    omega

theorem two_zero (n : Nat) (V : Nat → Nat → Nat → Nat → K) (T S : Finset Nat) (hc : 3 ≤ (T \ S).card) :
    twoBody n V T S = 0 := by
  unfold twoBody
  rw [Finset.sum_eq_zero, mul_zero]
  intro r _
  apply Finset.sum_eq_zero
  intro s _
  apply inner_none
  intro p q _ _ _ _ _ _ he
  have hsub : T \ S ⊆ {p, q} := by
    intro x hx
    rw [Finset.mem_sdiff] at hx
    rw [Finset.mem_insert, Finset.mem_singleton]
    by_contra hxp
    push Not at hxp
    have : x ∈ (S.erase r).erase s := by rw [← he]; simp [hxp.1, hxp.2, hx.1]
    exact hx.2 (Finset.mem_of_mem_erase (Finset.mem_of_mem_erase this))
  have h1 := Finset.card_le_card hsub
  have h2 : ({p, q} : Finset Nat).card ≤ 2 := Finset.card_le_two
  omega

end Verif.CI
