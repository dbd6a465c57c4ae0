import Verif.KPoint.Props

/-!
# Writing and reading the FCIDUMP of a Hamiltonian with k-points (C110)
-/

namespace Verif.KPoint

open Files Finset

variable {nkp : Nat}

theorem list_map_of {α β : Type} (g : α → β) (P : α → Prop) : ∀ l : List β, (∀ b ∈ l, ∃ a, P a ∧ b = g a) →
    ∃ as : List α, l = as.map g ∧ ∀ a ∈ as, P a
  | [], _ => ⟨[], rfl, by simp⟩
  | b :: l, h => by
    obtain ⟨as, e, hP⟩ := list_map_of g P l fun b hb => h b (List.mem_cons_of_mem _ hb)
    obtain ⟨a, ha, rfl⟩ := h b (by simp)
    exact ⟨a :: as, by rw [e, List.map_cons], fun x hx => by
      rcases List.mem_cons.1 hx with rfl | hx
      · exact ha
      · exact hP x hx⟩

theorem list_map_iff {α β : Type} (g : α → β) (hg : Function.Injective g) (P : α → Prop) (l : List β)
    (h : ∀ b, b ∈ l ↔ ∃ a, P a ∧ b = g a) : ∃ as : List α, l = as.map g ∧ ∀ a, a ∈ as ↔ P a := by
  obtain ⟨as, e, hP⟩ := list_map_of g P l fun b hb => (h b).1 hb
  refine ⟨as, e, fun a => ⟨hP a, fun ha => ?_⟩⟩
  have := (h (g a)).2 ⟨a, ha, rfl⟩
  rw [e] at this
  obtain ⟨a', h1, h2⟩ := List.mem_map.1 this
  rwa [← hg h2]

variable (y : Sizes nkp) (L : Fin nkp → Fin nkp → Nat → Nat → ℂ)

/-- With one momentum transfer for each pair of k-points, an integral is one number of the block of its momentum transfer. -/
theorem kEri_block (hinj : ∀ k, Function.Injective fun Q => y.qk Q k) (Q ki kl : Fin nkp) (i : Fin (y.nmo ki))
    (k : Fin (y.nmo (y.qk Q ki))) (j : Fin (y.nmo (y.qk Q kl))) (l : Fin (y.nmo kl)) :
    kEri y L ⟨ki, i⟩ ⟨_, k⟩ ⟨_, j⟩ ⟨kl, l⟩ = eriAt y Q (L Q) ki kl (i * y.nmo (y.qk Q ki) + k) (l * y.nmo (y.qk Q kl) + j) := by
  rw [kEri, Finset.sum_eq_single Q]
  · rw [if_pos ⟨rfl, rfl⟩, eriAt]
  · intro Q' _ h
    rw [if_neg fun hq => h (hinj ki hq.1)]
  · simp

theorem kEri_ne {a b c d : Orb y} (h : kEri y L a b c d ≠ 0) : ∃ Q, y.qk Q a.1 = b.1 ∧ y.qk Q d.1 = c.1 := by
  by_contra hn
  push Not at hn
  refine h (Finset.sum_eq_zero fun Q _ => if_neg fun hq => hn Q hq.1 hq.2)

theorem fmt_index {rnd : ℝ → ℝ} {z z' : ℂ} {q q' : Quad} (h : fmt rnd z q true false = fmt rnd z' q' true false) : q = q' := by
  simp [fmt] at h
  exact h.2.2

open Classical in
/-- The file that is written and read again has the integrals of the factorisation: above the tolerance with the rounding
of the format, zero otherwise; the orbitals are numbered k-point after k-point. -/
theorem read_write_kpoint (rnd : ℝ → ℝ) (hodd : ∀ x, rnd (-x) = - rnd x) (hinj : ∀ k, Function.Injective fun Q => y.qk Q k)
    (hcore : Fin nkp → Nat → Nat → ℂ) (hherm : ∀ k (i j : Fin (y.nmo k)), hcore k j i = star (hcore k i j))
    (enuc : ℝ) (nelec : Nat × Nat) (tol : ℝ) (htol : 0 ≤ tol) (sym : Nat) (hs : sym = 1 ∨ sym = 4 ∨ sym = 8)
    (hex : sym ≠ 1 → ∀ a b c d, kEri y L c d a b = kEri y L a b c d) (hre : sym = 8 → ∀ a b c d, kEri y L b a c d = kEri y L a b c d) :
    ∃ f r, writeK rnd y hcore (fun Q => .mats (L Q)) enuc (total y) nelec tol sym false true = some f ∧ readFcidump f sym = some r ∧
      (∀ a b c d : Orb y, r.h2 (num y a, num y b, num y c, num y d) =
        if tol < ‖kEri y L a b c d‖ then arrives rnd true (kEri y L a b c d) else 0) ∧
      (∀ a b : Orb y, r.h1 (num y a) (num y b) = if tol < ‖coreAt y hcore a b‖ then arrives rnd true (coreAt y hcore a b) else 0) ∧
      r.ecore = (rnd enuc : ℂ) ∧ r.nelec = ((nelec.1 : ℤ), (nelec.2 : ℤ)) := by
  have hV : ∀ a b c d, eri (dense y L) (num y a) (num y b) (num y c) (num y d) = kEri y L a b c d := eri_dense y L
  have hsurj : ∀ I : Fin (total y), ∃ a, num y a = I := fun I => finSigmaFinEquiv.surjective I
  have hnum : Function.Injective (num y) := finSigmaFinEquiv.injective
  have hC : ∀ a b, denseCore y hcore (num y a) (num y b) = coreAt y hcore a b := by
    intro a b
    simp only [denseCore, num, Equiv.symm_apply_apply]
  -- the two-electron lines
  let bl : Fin nkp → Fin nkp → Fin nkp → List Line := fun Q ki kl => ((block y Q ki kl).filter fun b =>
        decide (tol < ‖eriAt y Q (L Q) ki kl b.2.1 b.2.2‖ ∧ checkSym b.1 (total y) sym = true)).map fun b =>
          fmt rnd (eriAt y Q (L Q) ki kl b.2.1 b.2.2) (b.1.1 + 1, b.1.2.1 + 1, b.1.2.2.1 + 1, b.1.2.2.2 + 1) true false
  let ls := (List.finRange nkp).flatMap fun Q => (List.finRange nkp).flatMap fun ki => (List.finRange nkp).flatMap fun kl => bl Q ki kl
  have hcol : collect (fun Q => collect (fun ki => collect (fun kl => blockLines rnd y (total y) tol sym true false (.mats (L Q)) Q ki kl)
      (List.finRange nkp)) (List.finRange nkp)) (List.finRange nkp) = some ls := by
    refine collect_some _ _ _ fun Q _ => collect_some _ _ _ fun ki _ => collect_some _ _ _ fun kl _ => ?_
    simp [blockLines, bl]
  obtain ⟨qs, e2, hqs⟩ := list_map_iff (fun q : FQuad (total y) => fmt rnd (at4 (eri (dense y L)) q) (up (nat q)) true false)
    (fun p q h => by
      have := fmt_index h
      simp only [up, Prod.mk.injEq, add_left_inj] at this
      exact nat_inj (Prod.ext this.1 (Prod.ext this.2.1 (Prod.ext this.2.2.1 this.2.2.2))))
    (fun q => tol < ‖at4 (eri (dense y L)) q‖ ∧ checkSym (nat q) (total y) sym = true) ls (by
      intro ln
      simp only [ls, bl, List.mem_flatMap, List.mem_finRange, true_and, List.mem_map, List.mem_filter, decide_eq_true_eq, mem_block]
      constructor
      · rintro ⟨Q, ki, kl, b, ⟨⟨i, k, j, l, rfl⟩, h1, h2⟩, rfl⟩
        refine ⟨(num y ⟨ki, i⟩, num y ⟨_, k⟩, num y ⟨_, j⟩, num y ⟨kl, l⟩), ⟨?_, h2⟩, ?_⟩
        · rw [at4, hV, kEri_block y L hinj]; exact h1
        · rw [at4, hV, kEri_block y L hinj]; rfl
      · rintro ⟨⟨I, K, J, M⟩, ⟨h1, h2⟩, rfl⟩
        obtain ⟨⟨ki, i⟩, rfl⟩ := hsurj I
        obtain ⟨⟨kk, k⟩, rfl⟩ := hsurj K
        obtain ⟨⟨kj, j⟩, rfl⟩ := hsurj J
        obtain ⟨⟨kl, l⟩, rfl⟩ := hsurj M
        have hne : kEri y L ⟨ki, i⟩ ⟨kk, k⟩ ⟨kj, j⟩ ⟨kl, l⟩ ≠ 0 := by
          intro h0
          rw [at4, hV, h0, norm_zero] at h1
          linarith
        obtain ⟨Q, hk, hj⟩ := kEri_ne y L hne
        simp only at hk hj
        subst hk
        subst hj
        refine ⟨Q, ki, kl, _, ⟨⟨i, k, j, l, rfl⟩, ?_, h2⟩, ?_⟩
        · rw [at4, hV, kEri_block y L hinj] at h1; exact h1
        · rw [at4, hV, kEri_block y L hinj]; rfl)
  -- the one-electron lines
  obtain ⟨ps, e1, hps⟩ := list_map_iff (fun p : Fin (total y) × Fin (total y) =>
      fmt rnd (denseCore y hcore p.1 p.2) (p.1 + 1, p.2 + 1, 0, 0) true false)
    (fun p q h => by
      have := fmt_index h
      simp only [Prod.mk.injEq, add_left_inj] at this
      exact Prod.ext (Fin.ext this.1) (Fin.ext this.2.1))
    (fun p => p.2 ≤ p.1 ∧ tol < ‖denseCore y hcore p.1 p.2‖) (oneLinesK rnd y hcore tol true false) (by
      intro ln
      simp only [oneLinesK, List.mem_flatMap, List.mem_finRange, true_and, List.mem_map, List.mem_filter, decide_eq_true_eq, num_val]
      have hc : ∀ k (i j : Fin (y.nmo k)), denseCore y hcore (num y ⟨k, i⟩) (num y ⟨k, j⟩) = hcore k i j := by
        intro k i j
        rw [hC, coreAt, if_pos rfl]
      constructor
      · rintro ⟨k, i, j, ⟨h1, h2⟩, rfl⟩
        refine ⟨(num y ⟨k, i⟩, num y ⟨k, j⟩), ⟨h1, ?_⟩, ?_⟩
        · rw [hc]; exact h2
        · rw [hc]
      · rintro ⟨⟨I, J⟩, ⟨h1, h2⟩, rfl⟩
        obtain ⟨⟨k, i⟩, rfl⟩ := hsurj I
        obtain ⟨⟨k', j⟩, rfl⟩ := hsurj J
        by_cases hk : k = k'
        · subst hk
          refine ⟨k, i, j, ⟨h1, ?_⟩, ?_⟩
          · rw [hc] at h2; exact h2
          · rw [hc]
        · exfalso
          rw [hC, coreAt, if_neg hk, norm_zero] at h2
          linarith)
  obtain ⟨r, hr, h2, h1, he, hn⟩ := read_list rnd hodd (denseCore y hcore) (by
      intro I J
      obtain ⟨⟨k, i⟩, rfl⟩ := hsurj I
      obtain ⟨⟨k', j⟩, rfl⟩ := hsurj J
      rw [hC, hC, coreAt, coreAt]
      by_cases hk : k = k'
      · subst hk
        rw [if_pos rfl, if_pos rfl]
        exact hherm k i j
      · rw [if_neg hk, if_neg (Ne.symm hk), star_zero])
    (dense y L) enuc nelec tol sym hs (by
      constructor
      · intro h I K J M
        obtain ⟨a, rfl⟩ := hsurj I
        obtain ⟨b, rfl⟩ := hsurj K
        obtain ⟨c, rfl⟩ := hsurj J
        obtain ⟨d, rfl⟩ := hsurj M
        rw [hV, hV]
        exact hex h a b c d
      · intro h I K J M
        obtain ⟨a, rfl⟩ := hsurj I
        obtain ⟨b, rfl⟩ := hsurj K
        obtain ⟨c, rfl⟩ := hsurj J
        obtain ⟨d, rfl⟩ := hsurj M
        rw [hV, hV]
        exact hre h a b c d) true qs hqs ps (fun i j => hps (i, j))
  refine ⟨_, r, ?_, hr, fun a b c d => ?_, fun a b => ?_, he, hn⟩
  · rw [writeK, hcol, Option.map_some, e2, e1]
  · rw [h2, hV]
  · rw [h1, hC]

/-- Vectors for opposite momentum transfers that belong together: `minus Q` leads back, and the vectors of the two are
adjoint to each other. -/
structure Paired (minus : Fin nkp → Fin nkp) : Prop where
  invol : ∀ Q, minus (minus Q) = Q
  back : ∀ Q k, y.qk (minus Q) (y.qk Q k) = k
  nchol : ∀ Q, y.nchol (minus Q) = y.nchol Q
  adj : ∀ Q k (i : Fin (y.nmo k)) (j : Fin (y.nmo (y.qk Q k))) (n : Fin (y.nchol Q)),
    L (minus Q) (y.qk Q k) (j * y.nmo k + i) n = star (L Q k (i * y.nmo (y.qk Q k) + j) n)

/-- Then exchanging the two electrons leaves the integrals as they are, as symmetry 4 needs. -/
theorem paired_exchange {minus : Fin nkp → Fin nkp} (h : Paired y L minus) (a b c d : Orb y) :
    kEri y L c d a b = kEri y L a b c d := by
  rw [kEri, kEri, ← Equiv.sum_comp (Function.Involutive.toPerm minus h.invol)]
  refine sum_congr rfl fun Q _ => ?_
  rw [show Function.Involutive.toPerm minus h.invol Q = minus Q from rfl]
  obtain ⟨ka, i⟩ := a
  obtain ⟨kb, k⟩ := b
  obtain ⟨kc, j⟩ := c
  obtain ⟨kd, l⟩ := d
  simp only
  by_cases hq : y.qk Q ka = kb ∧ y.qk Q kd = kc
  · obtain ⟨rfl, rfl⟩ := hq
    rw [if_pos ⟨h.back Q kd, h.back Q ka⟩, if_pos ⟨rfl, rfl⟩, ← (finCongr (h.nchol Q).symm).sum_comp]
    refine sum_congr rfl fun n _ => ?_
    rw [show ((finCongr (h.nchol Q).symm n : Fin _) : Nat) = (n : Nat) from rfl, h.adj Q kd l j n, h.adj Q ka i k n, star_star, mul_comm]
  · rw [if_neg hq, if_neg]
    rintro ⟨h1, h2⟩
    refine hq ⟨?_, ?_⟩
    · rw [← h2]; have := h.back (minus Q) kb; rwa [h.invol] at this
    · rw [← h1]; have := h.back (minus Q) kc; rwa [h.invol] at this

/-- Real output never works: the check counts axes, not complex integrals. -/
theorem real_exits (rnd : ℝ → ℝ) (hn : 0 < nkp) (hcore : Fin nkp → Nat → Nat → ℂ) (chol : Fin nkp → KArr nkp) (enuc : ℝ) (nt : Nat)
    (nelec : Nat × Nat) (tol : ℝ) (sym : Nat) (paren : Bool) : writeK rnd y hcore chol enuc nt nelec tol sym paren false = none := by
  rw [writeK, collect_none, Option.map_none]
  refine ⟨⟨0, hn⟩, List.mem_finRange _, collect_none _ _ ⟨⟨0, hn⟩, List.mem_finRange _, collect_none _ _ ⟨⟨0, hn⟩, List.mem_finRange _, ?_⟩⟩⟩
  simp [blockLines]

/-- What the reader returns cannot be written: it is not split into rows and columns. -/
theorem read_not_writable (rnd : ℝ → ℝ) (hn : 0 < nkp) (hmo : ∀ k, 0 < y.nmo k) (hcore : Fin nkp → Nat → Nat → ℂ)
    (stored : Fin nkp → Option (Fin nkp → Nat → ℂ)) (minusK : Fin nkp → Fin nkp) (chol : Fin nkp → KArr nkp)
    (hread : ∀ Q, getChol stored minusK Q = some (chol Q)) (enuc : ℝ) (nt : Nat)
    (nelec : Nat × Nat) (tol : ℝ) (sym : Nat) (paren cplx : Bool) : writeK rnd y hcore chol enuc nt nelec tol sym paren cplx = none := by
  cases cplx
  · exact real_exits y rnd hn hcore chol enuc nt nelec tol sym paren
  rw [writeK, collect_none, Option.map_none]
  refine ⟨⟨0, hn⟩, List.mem_finRange _, collect_none _ _ ⟨⟨0, hn⟩, List.mem_finRange _, collect_none _ _ ⟨⟨0, hn⟩, List.mem_finRange _, ?_⟩⟩⟩
  have hf : ∃ v, chol ⟨0, hn⟩ = .flat v := by
    have := hread ⟨0, hn⟩
    unfold getChol at this
    split at this
    · exact ⟨_, (Option.some.inj this).symm⟩
    · obtain ⟨v, -, h⟩ := Option.map_eq_some_iff.1 this
      exact ⟨_, h.symm⟩
  obtain ⟨v, hv⟩ := hf
  have hb : block y ⟨0, hn⟩ ⟨0, hn⟩ ⟨0, hn⟩ ≠ [] := by
    refine List.ne_nil_of_mem ((mem_block y _ _ _ _).2 ⟨⟨0, hmo _⟩, ⟨0, hmo _⟩, ⟨0, hmo _⟩, ⟨0, hmo _⟩, rfl⟩)
  simp [blockLines, hv, hb]

end Verif.KPoint
