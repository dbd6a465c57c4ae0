import Verif.Itcf.Model

/-!
# C94: imaginary-time Green's functions
-/

namespace Verif.Itcf

open Matrix
open Verif.Slater (QR QRSpec FullRank gab linReortho backLoop backLoop_spec linReortho_ortho gab_mix gab_facts)

variable {nb : Nat} {nocc : Fin 2 → Nat}

/-! ## Stored left orbitals -/

theorem backStore_length (qr : QR nb) (nstblz : Nat) (l : List (Fin 2 → Mat nb)) : ∀ (i : Nat) (φ : Orbs nb nocc),
    (backStore qr nstblz i l φ).length = l.length := by
  induction l with
  | nil => intro i φ; rfl
  | cons B l ih => intro i φ; simp [backStore, ih]

theorem backStore_get (qr : QR nb) (nstblz : Nat) (l : List (Fin 2 → Mat nb)) : ∀ (i : Nat) (φ : Orbs nb nocc) (k : Nat),
    k < l.length → (backStore qr nstblz i l φ)[k]? =
      some fun s => backLoop qr nstblz i ((l.take (k + 1)).map (· s)) (φ s) := by
  induction l with
  | nil => intro i φ k h; simp at h
  | cons B l ih =>
    intro i φ k h
    cases k with
    | zero =>
      simp only [backStore, List.getElem?_cons_zero, List.take_succ_cons, List.take_zero, List.map_cons, List.map_nil, backLoop]
    | succ k =>
      rw [backStore, List.getElem?_cons_succ, ih _ _ _ (by simpa using h)]
      simp only [List.take_succ_cons, List.map_cons, backLoop]

theorem left_eq (qr : QR nb) (nstblz : Nat) (Bs : List (Fin 2 → Mat nb)) (psi : Orbs nb nocc) (s : Fin 2) :
    ((backStore qr nstblz 0 Bs.reverse psi).getLastD psi) s = backLoop qr nstblz 0 (Bs.reverse.map (· s)) (psi s) := by
  rcases Nat.eq_zero_or_pos Bs.length with h | h
  · rw [List.length_eq_zero_iff] at h
    subst h
    simp [backStore, backLoop]
  · have hl := backStore_length qr nstblz Bs.reverse 0 psi
    rw [List.length_reverse] at hl
    rw [List.getLastD_eq_getLast?, List.getLast?_eq_getElem?, hl,
      backStore_get qr nstblz Bs.reverse 0 psi (Bs.length - 1) (by rw [List.length_reverse]; omega)]
    simp only [Option.getD_some]
    rw [List.take_of_length_le (by rw [List.length_reverse]; omega)]

/-- Position `len - n - 1` of the stored orbitals are those at time `n`. -/
theorem store_at (qr : QR nb) (nstblz : Nat) (Bs : List (Fin 2 → Mat nb)) (psi : Orbs nb nocc) {n : Nat} (h : n < Bs.length) :
    (backStore qr nstblz 0 Bs.reverse psi)[Bs.length - n - 1]? =
      some fun s => backLoop qr nstblz 0 (((Bs.drop n).map (· s)).reverse) (psi s) := by
  rw [backStore_get _ _ _ _ _ _ (by rw [List.length_reverse]; omega)]
  congr 1
  funext s
  rw [show Bs.length - n - 1 + 1 = Bs.length - n by omega, List.take_reverse,
    show Bs.length - (Bs.length - n) = n by omega, List.map_reverse]

/-! ## Propagators -/

theorem U_zero (Bs : List (Fin 2 → Mat nb)) (s : Fin 2) : U Bs 0 s = 1 := by simp [U]

theorem U_succ {Bs : List (Fin 2 → Mat nb)} {n : Nat} {B : Fin 2 → Mat nb} (h : Bs[n]? = some B) (s : Fin 2) :
    U Bs (n + 1) s = B s * U Bs n s := by
  rw [U, U, List.take_succ, h]
  simp

theorem VU (Bs : List (Fin 2 → Mat nb)) (n : Nat) (s : Fin 2) : V Bs n s * U Bs n s = V Bs 0 s := by
  rw [V, V, U, ← List.prod_append, ← List.reverse_append, ← List.map_append, List.take_append_drop, List.drop_zero]

theorem prod_det (l : List (Mat nb)) (h : ∀ B ∈ l, B.det ≠ 0) : l.prod.det ≠ 0 := by
  induction l with
  | nil => simp
  | cons B l ih =>
    rw [List.prod_cons, Matrix.det_mul]
    exact mul_ne_zero (h B List.mem_cons_self) (ih fun C hC => h C (List.mem_cons_of_mem _ hC))

theorem U_det {Bs : List (Fin 2 → Mat nb)} {s : Fin 2} (h : ∀ B ∈ Bs, (B s).det ≠ 0) (n : Nat) : (U Bs n s).det ≠ 0 := by
  refine prod_det _ fun B hB => ?_
  rw [List.mem_reverse, List.mem_map] at hB
  obtain ⟨C, hC, rfl⟩ := hB
  exact h C (List.mem_of_mem_take hC)

theorem left_spec (qr : QR nb) (hqr : QRSpec qr) (nstblz : Nat) {Bs : List (Fin 2 → Mat nb)} {s : Fin 2}
    (h : ∀ B ∈ Bs, (B s).det ≠ 0) {psi : Matrix (Fin nb) (Fin (nocc s)) ℂ} (hp : FullRank psi) (n : Nat) :
    ∃ X : Matrix (Fin (nocc s)) (Fin (nocc s)) ℂ, X.det ≠ 0 ∧
      (V Bs n s)ᴴ * psi = backLoop qr nstblz 0 (((Bs.drop n).map (· s)).reverse) psi * X := by
  obtain ⟨X, d, hd, hX, -, he, -⟩ := backLoop_spec qr hqr nstblz (((Bs.drop n).map (· s)).reverse) 0 psi hp (by
    intro B hB
    rw [List.mem_reverse, List.mem_map] at hB
    obtain ⟨C, hC, rfl⟩ := hB
    exact h C (List.mem_of_mem_drop hC))
  exact ⟨X, by rw [hX]; exact_mod_cast hd.ne', he⟩

/-- The equal-time Green's function at time `n` is the one at the start, moved by the propagator. -/
theorem gab_moved {k : Nat} (W T W0 : Mat nb) (hW : W * T = W0) (hT : T.det ≠ 0) (psi phi : Matrix (Fin nb) (Fin k) ℂ) :
    gab (Wᴴ * psi) (T * phi) = T * gab (W0ᴴ * psi) phi * T⁻¹ := by
  have hTT := Matrix.mul_nonsing_inv _ (isUnit_iff_ne_zero.2 hT)
  have e1 : (Wᴴ * psi)ᴴ * (T * phi) = (W0ᴴ * psi)ᴴ * phi := by
    rw [Matrix.conjTranspose_mul, Matrix.conjTranspose_mul, Matrix.conjTranspose_conjTranspose,
      Matrix.conjTranspose_conjTranspose, ← hW]
    simp only [Matrix.mul_assoc]
  have e2 : (Wᴴ * psi)ᴴ = (W0ᴴ * psi)ᴴ * T⁻¹ := by
    rw [Matrix.conjTranspose_mul, Matrix.conjTranspose_mul, Matrix.conjTranspose_conjTranspose,
      Matrix.conjTranspose_conjTranspose, ← hW, Matrix.mul_assoc, Matrix.mul_assoc, hTT, Matrix.mul_one]
  rw [gab, e1, e2, gab]
  simp only [Matrix.mul_assoc]

/-! ## The loop -/

/-- The Green's function of a spin at the start. -/
noncomputable def G0 (Bs : List (Fin 2 → Mat nb)) (psi rt : Orbs nb nocc) (s : Fin 2) : Mat nb := gab ((V Bs 0 s)ᴴ * psi s) (rt s)

/-- What is assumed of a walker: invertible propagators, independent orbitals, a nonzero overlap. -/
structure Good (Bs : List (Fin 2 → Mat nb)) (psi rt : Orbs nb nocc) : Prop where
  inv : ∀ s, ∀ B ∈ Bs, (B s).det ≠ 0
  left : ∀ s, FullRank (psi s)
  start : ∀ s, FullRank (rt s)
  ovl : ∀ s, (((V Bs 0 s)ᴴ * psi s)ᴴ * rt s).det ≠ 0

/-- The invariant of the loop that the right places keep. -/
structure Inv (Bs : List (Fin 2 → Mat nb)) (psi rt : Orbs nb nocc) (n : Nat) (st : St nb nocc) : Prop where
  gr : ∀ s, st.gr s = if n = 0 then 1 else U Bs n s * (1 - G0 Bs psi rt s)
  ls : ∀ s, st.ls s = if n = 0 then 1 else G0 Bs psi rt s * (U Bs n s)⁻¹
  grnn : ∀ s, n < Bs.length → st.grnn s = 1 - U Bs n s * G0 Bs psi rt s * (U Bs n s)⁻¹
  lsnn : ∀ s, st.lsnn s = 1 - st.grnn s
  right : ∀ s, ∃ Y : Matrix (Fin (nocc s)) (Fin (nocc s)) ℂ, Y.det ≠ 0 ∧ U Bs n s * rt s = st.right s * Y ∧ FullRank (st.right s)

variable {qr : QR nb} {nstblz : Nat} {Bs : List (Fin 2 → Mat nb)} {psi rt : Orbs nb nocc}

theorem start_inv (hqr : QRSpec qr) (hg : Good Bs psi rt) : Inv Bs psi rt 0 (start qr nstblz psi rt Bs) := by
  refine ⟨fun s => by simp [start], fun s => by simp [start], fun s _ => ?_, fun s => by simp [start, initialG], fun s => ?_⟩
  · simp only [start, initialG]
    rw [left_eq, U_zero, inv_one, Matrix.one_mul, Matrix.mul_one]
    obtain ⟨X, hX, he⟩ := left_spec qr hqr nstblz (hg.inv s) (hg.left s) 0
    rw [G0, he, List.drop_zero, List.map_reverse]
    have := gab_mix (backLoop qr nstblz 0 (Bs.map (· s)).reverse (psi s)) (rt s) X 1 hX (by simp)
    rw [Matrix.mul_one] at this
    rw [this]
  · exact ⟨1, by simp, by simp [start, U_zero], hg.start s⟩

theorem algebra_gr (B T G : Mat nb) (hT : T.det ≠ 0) (hG : G * G = G) :
    B * (1 - T * G * T⁻¹) * (T * (1 - G)) = B * T * (1 - G) := by
  have hTT := Matrix.nonsing_inv_mul _ (isUnit_iff_ne_zero.2 hT)
  have h1 : T * G * T⁻¹ * (T * (1 - G)) = 0 := by
    have : T * G * T⁻¹ * (T * (1 - G)) = T * (G * ((T⁻¹ * T) * (1 - G))) := by simp only [Matrix.mul_assoc]
    rw [this, hTT, Matrix.one_mul, Matrix.mul_sub, hG, Matrix.mul_one, sub_self, Matrix.mul_zero]
  rw [Matrix.mul_assoc, Matrix.sub_mul, h1, sub_zero, Matrix.one_mul, Matrix.mul_assoc]

theorem algebra_ls (B T G : Mat nb) (hT : T.det ≠ 0) (hG : G * G = G) :
    G * T⁻¹ * (T * G * T⁻¹ * B⁻¹) = G * (B * T)⁻¹ := by
  have hTT := Matrix.nonsing_inv_mul _ (isUnit_iff_ne_zero.2 hT)
  have : G * T⁻¹ * (T * G * T⁻¹ * B⁻¹) = G * ((T⁻¹ * T) * (G * (T⁻¹ * B⁻¹))) := by simp only [Matrix.mul_assoc]
  rw [this, hTT, Matrix.one_mul, ← Matrix.mul_assoc, hG, Matrix.mul_inv_rev]

theorem G0_idem (hg : Good Bs psi rt) (s : Fin 2) : G0 Bs psi rt s * G0 Bs psi rt s = G0 Bs psi rt s :=
  (gab_facts _ _ (hg.ovl s)).1

theorem gr_succ (hg : Good Bs psi rt) {n : Nat} {st : St nb nocc} (hi : Inv Bs psi rt n st) {B : Fin 2 → Mat nb}
    (hB : Bs[n]? = some B) (s : Fin 2) :
    B s * st.grnn s * st.gr s = U Bs (n + 1) s * (1 - G0 Bs psi rt s) := by
  have hn : n < Bs.length := (List.getElem?_eq_some_iff.1 hB).1
  rw [hi.gr s, hi.grnn s hn, U_succ hB]
  split_ifs with h0
  · subst h0
    rw [U_zero, inv_one, Matrix.mul_one, Matrix.mul_one, Matrix.one_mul, Matrix.mul_one]
  · exact algebra_gr _ _ _ (U_det (hg.inv s) n) (G0_idem hg s)

theorem ls_succ (hg : Good Bs psi rt) {n : Nat} {st : St nb nocc} (hi : Inv Bs psi rt n st) {B : Fin 2 → Mat nb}
    (hB : Bs[n]? = some B) (s : Fin 2) :
    st.ls s * (st.lsnn s * (B s)⁻¹) = G0 Bs psi rt s * (U Bs (n + 1) s)⁻¹ := by
  have hn : n < Bs.length := (List.getElem?_eq_some_iff.1 hB).1
  rw [hi.lsnn s, hi.ls s, hi.grnn s hn, U_succ hB, sub_sub_cancel]
  split_ifs with h0
  · subst h0
    rw [U_zero, inv_one, Matrix.mul_one, Matrix.mul_one, Matrix.one_mul, Matrix.one_mul]
  · exact algebra_ls _ _ _ (U_det (hg.inv s) n) (G0_idem hg s)

/-- The right orbitals after an iteration. -/
theorem right_succ (hqr : QRSpec qr) (hg : Good Bs psi rt) {n : Nat} {st : St nb nocc} (hi : Inv Bs psi rt n st)
    {B : Fin 2 → Mat nb} (hB : Bs[n]? = some B) (s : Fin 2) :
    ∃ Y : Matrix (Fin (nocc s)) (Fin (nocc s)) ℂ, Y.det ≠ 0 ∧
      U Bs (n + 1) s * rt s = (if n ≠ 0 ∧ n % nstblz = 0 then (linReortho qr (B s * st.right s)).1 else B s * st.right s) * Y ∧
      FullRank (if n ≠ 0 ∧ n % nstblz = 0 then (linReortho qr (B s * st.right s)).1 else B s * st.right s) := by
  obtain ⟨Y, hY, he, hf⟩ := hi.right s
  have hBd : (B s).det ≠ 0 := hg.inv s B (List.mem_of_getElem? hB)
  have h1 : FullRank (B s * st.right s) := hf.mul hBd
  have h2 : U Bs (n + 1) s * rt s = B s * st.right s * Y := by
    rw [U_succ hB, Matrix.mul_assoc, he, Matrix.mul_assoc]
  split_ifs with hc
  · obtain ⟨Z, d, ho, -⟩ := linReortho_ortho qr hqr _ h1
    refine ⟨Z * Y, ?_, ?_, ho.fullRank⟩
    · rw [Matrix.det_mul, ho.det]
      exact mul_ne_zero (by exact_mod_cast ho.pos.ne') hY
    · rw [h2, ← Matrix.mul_assoc]
      conv_lhs => rw [ho.eq]
  · exact ⟨Y, hY, h2, h1⟩

theorem iter_inv (hqr : QRSpec qr) (hg : Good Bs psi rt) {n : Nat} {st : St nb nocc} (hi : Inv Bs psi rt n st)
    (hn : n < Bs.length) : ∃ st', iter right qr nstblz psi Bs n st = some st' ∧ Inv Bs psi rt (n + 1) st' := by
  have hB : Bs[n]? = some Bs[n] := List.getElem?_eq_getElem hn
  generalize hBe : Bs[n] = B at hB
  have hlen := backStore_length qr nstblz Bs.reverse 0 psi
  rw [List.length_reverse] at hlen
  -- the stored orbitals exist
  have hL : ∃ L, pyGet (backStore qr nstblz 0 Bs.reverse psi)
      (((backStore qr nstblz 0 Bs.reverse psi).length : ℤ) - n - (right.back : ℕ)) = some L ∧
      (n + 1 < Bs.length → L = fun s => backLoop qr nstblz 0 (((Bs.drop (n + 1)).map (· s)).reverse) (psi s)) := by
    rw [hlen]
    by_cases h : n + 1 < Bs.length
    · refine ⟨_, ?_, fun _ => rfl⟩
      rw [pyGet, if_pos (by simp only [right]; omega), ← store_at qr nstblz Bs psi h]
      congr 1
      simp only [right]; omega
    · have he : n + 1 = Bs.length := by omega
      have : Bs.length - 1 < (backStore qr nstblz 0 Bs.reverse psi).length := by rw [hlen]; omega
      refine ⟨(backStore qr nstblz 0 Bs.reverse psi)[Bs.length - 1], ?_, fun h' => absurd h' h⟩
      rw [pyGet, if_neg (by simp only [right]; omega), if_pos (by rw [hlen]; simp only [right]; omega),
        ← List.getElem?_eq_getElem this, hlen]
      congr 1
      simp only [right]; omega
  obtain ⟨L, hL1, hL2⟩ := hL
  refine ⟨_, by rw [iter, hB]; simp only [hL1]; rfl, ?_⟩
  refine ⟨fun s => ?_, fun s => ?_, fun s hlt => ?_, fun s => ?_, fun s => ?_⟩
  · rw [if_neg (Nat.succ_ne_zero n)]
    exact gr_succ hg hi hB s
  · rw [if_neg (Nat.succ_ne_zero n), ← ls_succ hg hi hB s]
    simp only [incrementStable, right]
    fin_cases s
    · rfl
    · rfl
  · simp only [initialG]
    rw [hL2 hlt]
    obtain ⟨Y, hY, hYe, -⟩ := right_succ (nstblz := nstblz) hqr hg hi hB s
    obtain ⟨X, hX, hXe⟩ := left_spec qr hqr nstblz (hg.inv s) (hg.left s) (n + 1)
    rw [G0, ← gab_moved (V Bs (n + 1) s) (U Bs (n + 1) s) (V Bs 0 s) (VU _ _ _) (U_det (hg.inv s) _), hXe, hYe,
      gab_mix _ _ X Y hX hY]
  · simp [initialG]
  · exact right_succ hqr hg hi hB s

theorem stateAt_inv (hqr : QRSpec qr) (hg : Good Bs psi rt) : ∀ n, n ≤ Bs.length →
    ∃ st, stateAt right qr nstblz psi rt Bs n = some st ∧ Inv Bs psi rt n st := by
  intro n
  induction n with
  | zero => exact fun _ => ⟨_, rfl, start_inv hqr hg⟩
  | succ n ih =>
    intro h
    obtain ⟨st, h1, h2⟩ := ih (by omega)
    obtain ⟨st', h3, h4⟩ := iter_inv (nstblz := nstblz) hqr hg h2 (by omega)
    exact ⟨st', by rw [stateAt, h1]; exact h3, h4⟩

/-! ## The Green's functions as ratios of overlaps -/

theorem greater_eq {k : Nat} (W T W0 : Mat nb) (hW : W * T = W0) (psi phi : Matrix (Fin nb) (Fin k) ℂ)
    (h : ((W0ᴴ * psi)ᴴ * phi).det ≠ 0) (i j : Fin nb) :
    greater W T W0 psi phi i j = (T * (1 - gab (W0ᴴ * psi) phi)) i j := by
  have e1 : (W0ᴴ * psi)ᴴ = (Wᴴ * psi)ᴴ * T := by
    rw [Matrix.conjTranspose_mul, Matrix.conjTranspose_mul, Matrix.conjTranspose_conjTranspose,
      Matrix.conjTranspose_conjTranspose, ← hW, Matrix.mul_assoc]
  set O := (W0ᴴ * psi)ᴴ * phi with hO
  have hu : IsUnit O := (Matrix.isUnit_iff_isUnit_det _).2 (isUnit_iff_ne_zero.2 h)
  have hb : (adjoin (Wᴴ * psi) i)ᴴ * (T * adjoin phi j) =
      Matrix.fromBlocks O (Matrix.of fun c (_ : Unit) => ((W0ᴴ * psi)ᴴ) c j) (Matrix.of fun (_ : Unit) c => (T * phi) i c)
        (Matrix.of fun (_ _ : Unit) => T i j) := by
    have hadj : ∀ (A : Matrix (Fin nb) (Fin k) ℂ) (M : Mat nb), M * adjoin A j =
        Matrix.of fun p c => Sum.elim ((M * A) p) (fun _ => M p j) c := by
      intro A M
      ext p c
      rcases c with c | c
      · simp [adjoin, Matrix.mul_apply]
      · simp [adjoin, Matrix.mul_apply]
    rw [hadj]
    ext a b
    rcases a with a | a
    · rcases b with b | b
      · rw [Matrix.fromBlocks_apply₁₁, hO, e1, Matrix.mul_assoc]
        rfl
      · simp only [Matrix.mul_apply, adjoin, Matrix.conjTranspose_apply, Matrix.of_apply, Sum.elim_inl, Sum.elim_inr,
          Matrix.fromBlocks_apply₁₂]
        have := congrFun (congrFun e1 a) j
        rw [Matrix.mul_apply] at this
        simpa [Matrix.conjTranspose_apply, Matrix.mul_apply] using this.symm
    · rcases b with b | b
      · simp [Matrix.mul_apply, adjoin]
      · simp [Matrix.mul_apply, adjoin]
  letI := hu.invertible
  rw [greater, ovl, ovl, hb, Matrix.det_fromBlocks₁₁, mul_div_cancel_left₀ _ h, Matrix.det_unique, Matrix.invOf_eq_nonsing_inv,
    Matrix.mul_sub, Matrix.mul_one, gab, ← hO]
  rw [Matrix.sub_apply, Matrix.sub_apply, ← Matrix.mul_assoc, ← Matrix.mul_assoc]
  rfl

theorem lesser_eq {k : Nat} (W T W0 : Mat nb) (hW : W * T = W0) (hT : T.det ≠ 0) (psi phi : Matrix (Fin nb) (Fin (k + 1)) ℂ)
    (h : ((W0ᴴ * psi)ᴴ * phi).det ≠ 0) (i j : Fin nb) :
    lesser W T W0 psi phi i j = (gab (W0ᴴ * psi) phi * T⁻¹) i j := by
  have hTT := Matrix.mul_nonsing_inv _ (isUnit_iff_ne_zero.2 hT)
  have e1 : (W0ᴴ * psi)ᴴ = (Wᴴ * psi)ᴴ * T := by
    rw [Matrix.conjTranspose_mul, Matrix.conjTranspose_mul, Matrix.conjTranspose_conjTranspose,
      Matrix.conjTranspose_conjTranspose, ← hW, Matrix.mul_assoc]
  set O := (W0ᴴ * psi)ᴴ * phi with hO
  have hOe : O = (Wᴴ * psi)ᴴ * (T * phi) := by rw [hO, e1, Matrix.mul_assoc]
  have hg : gab (W0ᴴ * psi) phi * T⁻¹ = (O.det)⁻¹ • (phi * (O.adjugate * (Wᴴ * psi)ᴴ)) := by
    rw [gab, ← hO, e1, Matrix.inv_def, Ring.inverse_eq_inv']
    simp only [Matrix.smul_mul, Matrix.mul_smul, Matrix.mul_assoc, hTT, Matrix.mul_one]
  rw [hg, lesser, ovl, ← hO, div_eq_inv_mul, Matrix.smul_apply, smul_eq_mul]
  congr 1
  rw [Matrix.mul_apply]
  refine Finset.sum_congr rfl fun c _ => ?_
  rw [Matrix.mul_apply, Finset.mul_sum]
  refine Finset.sum_congr rfl fun d _ => ?_
  rw [Matrix.adjugate_fin_succ_eq_det_submatrix, Matrix.conjTranspose_apply]
  have : ((Wᴴ * psi).submatrix id d.succAbove)ᴴ * (T * phi.submatrix id c.succAbove) =
      O.submatrix d.succAbove c.succAbove := by
    rw [hOe]
    ext a b
    simp [Matrix.mul_apply, Matrix.submatrix_apply]
  rw [ovl, this, add_comm (c : ℕ) (d : ℕ)]
  ring

/-! ## C94 -/

/-- Times to which the functions of the definition belong. -/
structure Correct (Bs : List (Fin 2 → Mat nb)) (psi rt : Orbs nb nocc) (n : Nat) (s : Fin 2) (gr ls : Mat nb) : Prop where
  gr : ∀ i j, gr i j = greater (V Bs n s) (U Bs n s) (V Bs 0 s) (psi s) (rt s) i j
  ls : ∀ {k} (h : nocc s = k + 1) i j, ls i j =
    lesser (V Bs n s) (U Bs n s) (V Bs 0 s) (h ▸ psi s : Matrix (Fin nb) (Fin (k + 1)) ℂ) (h ▸ rt s) i j

theorem cast_gab {k l : Nat} (h : k = l) (A B : Matrix (Fin nb) (Fin k) ℂ) (W : Mat nb) :
    gab (W * (h ▸ A : Matrix (Fin nb) (Fin l) ℂ)) (h ▸ B) = gab (W * A) B := by subst h; rfl

theorem cast_ovl {k l : Nat} (h : k = l) (A B : Matrix (Fin nb) (Fin k) ℂ) (W : Mat nb) :
    ((W * (h ▸ A : Matrix (Fin nb) (Fin l) ℂ))ᴴ * (h ▸ B : Matrix (Fin nb) (Fin l) ℂ)).det = ((W * A)ᴴ * B).det := by
  subst h; rfl

theorem correct_of (hg : Good Bs psi rt) {n : Nat} {s : Fin 2} {gr ls : Mat nb}
    (h1 : gr = U Bs n s * (1 - G0 Bs psi rt s)) (h2 : ls = G0 Bs psi rt s * (U Bs n s)⁻¹) : Correct Bs psi rt n s gr ls := by
  refine ⟨fun i j => ?_, fun h i j => ?_⟩
  · rw [greater_eq _ _ _ (VU Bs n s) _ _ (hg.ovl s), h1]; rfl
  · rw [lesser_eq _ _ _ (VU Bs n s) (U_det (hg.inv s) n) _ _ (by rw [cast_ovl]; exact hg.ovl s), h2, cast_gab]; rfl

/-- **C94, corrected program**: with the two places corrected, the stable algorithm gives at every time the greater and the lesser
Green's functions of both spins, for any propagators, any reorthogonalisation and any QR routine. -/
theorem stable_correct (hqr : QRSpec qr) (hg : Good Bs psi rt) (n : Nat) (hn : n ≤ Bs.length) :
    ∃ g, stable right qr nstblz psi rt Bs n = some g ∧ ∀ s, Correct Bs psi rt n s (g.1 s) (g.2 s) := by
  obtain ⟨st, h1, h2⟩ := stateAt_inv (nstblz := nstblz) hqr hg n hn
  refine ⟨_, by rw [stable, h1]; rfl, fun s => ?_⟩
  rcases Nat.eq_zero_or_pos n with rfl | hpos
  · have h0 : st = start qr nstblz psi rt Bs := (Option.some.inj h1).symm
    have hgr : st.grnn s = 1 - G0 Bs psi rt s := by
      rcases Nat.eq_zero_or_pos Bs.length with hl | hl
      · rw [List.length_eq_zero_iff] at hl
        subst hl h0
        simp [start, initialG, backStore, G0, V]
      · rw [h2.grnn s hl, U_zero, inv_one, Matrix.one_mul, Matrix.mul_one]
    refine correct_of hg ?_ ?_
    · simp only [if_true]; rw [hgr, U_zero, Matrix.one_mul]
    · simp only [if_true]; rw [h2.lsnn, hgr, U_zero, inv_one, Matrix.mul_one, sub_sub_cancel]
  · refine correct_of hg ?_ ?_
    · simp only [if_neg hpos.ne']; rw [h2.gr s, if_neg hpos.ne']
    · simp only [if_neg hpos.ne']; rw [h2.ls s, if_neg hpos.ne']

/-- **C94_partial**: the code gives the right functions at equal times, and after one slice the right greater functions and the
right lesser function of the up spin.  Missing: later times and the lesser function of the down spin, which are wrong
(`later_wrong`, `down_wrong`). -/
theorem code_partial (hqr : QRSpec qr) (hg : Good Bs psi rt) (hn : 0 < Bs.length) :
    (∃ g, stable code qr nstblz psi rt Bs 0 = some g ∧ ∀ s, Correct Bs psi rt 0 s (g.1 s) (g.2 s)) ∧
    ∃ g ls, stable code qr nstblz psi rt Bs 1 = some g ∧ Correct Bs psi rt 1 0 (g.1 0) (g.2 0) ∧
      Correct Bs psi rt 1 1 (g.1 1) ls := by
  refine ⟨?_, ?_⟩
  · obtain ⟨g, h1, h2⟩ := stable_correct (nstblz := nstblz) hqr hg 0 (Nat.zero_le _)
    exact ⟨g, h1, h2⟩
  · have hi := start_inv (nstblz := nstblz) hqr hg
    have hB : Bs[0]? = some Bs[0] := List.getElem?_eq_getElem hn
    have hlen := backStore_length qr nstblz Bs.reverse 0 psi
    rw [List.length_reverse] at hlen
    have hL : ∃ L, pyGet (backStore qr nstblz 0 Bs.reverse psi)
        (((backStore qr nstblz 0 Bs.reverse psi).length : ℤ) - (0 : ℕ) - (code.back : ℕ)) = some L := by
      have : Bs.length - 1 < (backStore qr nstblz 0 Bs.reverse psi).length := by rw [hlen]; omega
      refine ⟨(backStore qr nstblz 0 Bs.reverse psi)[Bs.length - 1], ?_⟩
      rw [pyGet, if_pos (by rw [hlen]; simp only [code]; omega), ← List.getElem?_eq_getElem this, hlen]
      congr 1
      simp only [code]; omega
    obtain ⟨L, hL⟩ := hL
    refine ⟨_, G0 Bs psi rt 1 * (U Bs 1 1)⁻¹, by
      rw [stable, stateAt, stateAt, Option.bind_some, iter, hB]
      simp only [hL]
      rfl, ?_, ?_⟩
    · exact correct_of hg (gr_succ hg hi hB 0) (ls_succ hg hi hB 0)
    · exact correct_of hg (gr_succ hg hi hB 1) rfl

/-- **C94 fails** for the naive algorithm: it raises as soon as there is a time slice. -/
theorem unstable_raises (n : Nat) (hn : 0 < n) : unstable qr nstblz psi rt Bs n = none := by
  cases n with
  | zero => exact absurd hn (lt_irrefl _)
  | succ n => rfl

/-- With the name repaired the naive algorithm gives the right functions at every time. -/
theorem unstableRepaired_correct (hqr : QRSpec qr) (hg : Good Bs psi rt) (n : Nat) (hn : n ≤ Bs.length) :
    ∃ g, unstableRepaired qr nstblz psi rt Bs n = some g ∧ ∀ s, Correct Bs psi rt n s (g.1 s) (g.2 s) := by
  have key : ∀ n, n ≤ Bs.length → ∃ g, unstableRepaired qr nstblz psi rt Bs n = some g ∧
      ∀ s, g.1 s = U Bs n s * (1 - G0 Bs psi rt s) ∧ g.2 s = G0 Bs psi rt s * (U Bs n s)⁻¹ := by
    intro n
    induction n with
    | zero =>
      intro _
      refine ⟨_, rfl, fun s => ?_⟩
      have hl : ((backStore qr nstblz 0 Bs.reverse psi).getLastD psi) s =
          backLoop qr nstblz 0 (((Bs.drop 0).map (· s)).reverse) (psi s) := by
        rw [left_eq, List.drop_zero, List.map_reverse]
      obtain ⟨X, hX, he⟩ := left_spec qr hqr nstblz (hg.inv s) (hg.left s) 0
      have h3 := gab_mix (backLoop qr nstblz 0 (((Bs.drop 0).map (· s)).reverse) (psi s)) (rt s) X 1 hX (by simp)
      rw [Matrix.mul_one] at h3
      simp only [initialG]
      rw [hl, U_zero, inv_one, Matrix.one_mul, Matrix.mul_one, G0, he, h3, sub_sub_cancel]
      exact ⟨rfl, rfl⟩
    | succ n ih =>
      intro h
      obtain ⟨g, h1, h2⟩ := ih (by omega)
      have hB : Bs[n]? = some Bs[n] := List.getElem?_eq_getElem (by omega)
      refine ⟨_, by rw [unstableRepaired, h1, hB], fun s => ?_⟩
      simp only [incrementUnstable]
      rw [U_succ hB, (h2 s).1, (h2 s).2, Matrix.mul_inv_rev, Matrix.mul_assoc, Matrix.mul_assoc]
      exact ⟨rfl, rfl⟩
  obtain ⟨g, h1, h2⟩ := key n hn
  exact ⟨g, h1, fun s => correct_of hg (h2 s).1 (h2 s).2⟩

end Verif.Itcf
