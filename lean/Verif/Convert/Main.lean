import Verif.Convert.Props
import Verif.Files.FcidumpProps

/-!
# The converted Hamiltonian
-/

namespace Verif.Convert

open Verif.Files (FFile FRead readFcidump Quad RSt Line readLine readLines set1 set2 setAll assigns orbit)

variable {n m : Nat}

/-! ## Reading real integrals with all symmetries -/

/-- Real numbers with the symmetries of real orbitals. -/
structure Real8 (st : RSt) : Prop where
  one : ∀ i j, star (st.h1 i j) = st.h1 i j
  two : ∀ q, star (st.h2 q) = st.h2 q
  front : ∀ i k j l, st.h2 (k, i, j, l) = st.h2 (i, k, j, l)
  pairs : ∀ i k j l, st.h2 (j, l, i, k) = st.h2 (i, k, j, l)
  core : ∀ e, st.ecore = some e → star e = e

theorem orbit_front (q : Quad) (i k j l : Nat) : (k, i, j, l) ∈ orbit 8 q ↔ (i, k, j, l) ∈ orbit 8 q := by
  obtain ⟨a, b, c, d⟩ := q
  rw [Files.orbit_eight]
  simp only [List.mem_cons, List.not_mem_nil, or_false, Prod.mk.injEq]
  constructor <;> rintro (⟨rfl, rfl, rfl, rfl⟩ | ⟨rfl, rfl, rfl, rfl⟩ | ⟨rfl, rfl, rfl, rfl⟩ | ⟨rfl, rfl, rfl, rfl⟩ | ⟨rfl, rfl, rfl, rfl⟩ | ⟨rfl, rfl, rfl, rfl⟩ | ⟨rfl, rfl, rfl, rfl⟩ | ⟨rfl, rfl, rfl, rfl⟩) <;> simp

theorem orbit_pairs (q : Quad) (i k j l : Nat) : (j, l, i, k) ∈ orbit 8 q ↔ (i, k, j, l) ∈ orbit 8 q := by
  obtain ⟨a, b, c, d⟩ := q
  rw [Files.orbit_eight]
  simp only [List.mem_cons, List.not_mem_nil, or_false, Prod.mk.injEq]
  constructor <;> rintro (⟨rfl, rfl, rfl, rfl⟩ | ⟨rfl, rfl, rfl, rfl⟩ | ⟨rfl, rfl, rfl, rfl⟩ | ⟨rfl, rfl, rfl, rfl⟩ | ⟨rfl, rfl, rfl, rfl⟩ | ⟨rfl, rfl, rfl, rfl⟩ | ⟨rfl, rfl, rfl, rfl⟩ | ⟨rfl, rfl, rfl, rfl⟩) <;> simp

theorem setAll_eight (h : Quad → ℂ) (q : Quad) (v : ℂ) (hv : star v = v) (p : Quad) :
    setAll h (assigns 8 q v) p = if p ∈ orbit 8 q then v else h p := by
  rw [Files.setAll_spec p v _ _ ?_, Files.assigns_keys]
  intro a ha _
  obtain ⟨i, k, j, l⟩ := q
  simp only [assigns, hv] at ha
  simp at ha
  rcases ha with rfl | rfl | rfl | rfl | rfl | rfl | rfl | rfl <;> rfl

theorem readLine_real8 (nb : Nat) (st st' : RSt) (v : ℝ) (q : Quad) (h : Real8 st) (hr : readLine nb 8 st (.five v q) = some st') :
    Real8 st' := by
  obtain ⟨i, k, j, l⟩ := q
  have hv : star (v : ℂ) = v := Complex.conj_ofReal v
  simp only [readLine] at hr
  split_ifs at hr with h1 h2 h3 h4 h5
  · obtain rfl := Option.some.inj hr
    exact ⟨h.one, h.two, h.front, h.pairs, fun e he => by rw [← Option.some.inj he]; exact hv⟩
  · obtain rfl := Option.some.inj hr
    refine ⟨fun a b => ?_, h.two, h.front, h.pairs, h.core⟩
    simp only [set1]
    split_ifs
    · rw [hv, hv]
    · exact hv
    · exact h.one a b
  · obtain rfl := Option.some.inj hr
    refine ⟨h.one, fun q => ?_, fun a b c d => ?_, fun a b c d => ?_, h.core⟩
    · simp only [setAll_eight _ _ _ hv]
      split_ifs
      · exact hv
      · exact h.two q
    · simp only [setAll_eight _ _ _ hv, orbit_front, h.front a b c d]
    · simp only [setAll_eight _ _ _ hv, orbit_pairs _ a b c d, h.pairs a b c d]
  · obtain rfl := Option.some.inj hr
    exact h

theorem readLines_real8 (nb : Nat) : ∀ (ls : List Line) (st st' : RSt), (∀ ln ∈ ls, ∃ v q, ln = Line.five v q) → Real8 st →
    readLines nb 8 st ls = some st' → Real8 st'
  | [], st, st', _, h, hr => by
    obtain rfl := Option.some.inj hr
    exact h
  | ln :: ls, st, st', hl, h, hr => by
    obtain ⟨v, q, rfl⟩ := hl ln List.mem_cons_self
    rw [readLines, Option.bind_eq_some_iff] at hr
    obtain ⟨s1, e1, e2⟩ := hr
    exact readLines_real8 nb ls s1 st' (fun x hx => hl x (List.mem_cons_of_mem _ hx)) (readLine_real8 nb st s1 v q h e1) e2

/-- A file of real integrals is read as real integrals with all symmetries. -/
theorem read_real8 (f : FFile) (hf : ∀ ln ∈ f.lines, ∃ v q, ln = Line.five v q) (r : FRead) (hr : readFcidump f 8 = some r) :
    (∀ i j, star (r.h1 i j) = r.h1 i j) ∧ (∀ q, star (r.h2 q) = r.h2 q) ∧ (∀ i k j l, r.h2 (k, i, j, l) = r.h2 (i, k, j, l)) ∧
      (∀ i k j l, r.h2 (j, l, i, k) = r.h2 (i, k, j, l)) ∧ star r.ecore = r.ecore := by
  simp only [readFcidump, or_true, if_true] at hr
  rw [Option.bind_eq_some_iff] at hr
  obtain ⟨st, h1, h2⟩ := hr
  rw [Option.map_eq_some_iff] at h2
  obtain ⟨e, he, rfl⟩ := h2
  have h := readLines_real8 f.norb f.lines _ st hf ⟨by simp, by simp, by simp, by simp, by simp⟩ h1
  exact ⟨h.one, h.two, h.front, h.pairs, h.core e he⟩

/-! ## Real vectors -/

theorem list_star (l : List ℂ) (h : ∀ z ∈ l, star z = z) : star l.sum = l.sum := by
  induction l with
  | nil => simp
  | cons a l ih => rw [List.sum_cons, star_add, h a List.mem_cons_self, ih fun z hz => h z (List.mem_cons_of_mem _ hz)]

/-- All numbers real. -/
def RealState (s : Chol.State n) : Prop := (∀ v ∈ s.vecs, ∀ i, star (v i) = v i) ∧ ∀ i, star (s.next i) = s.next i

theorem ofReal_star (x : ℝ) : star (x : ℂ) = x := Complex.conj_ofReal x

theorem step_real (amax : (Fin n → ℝ) → Fin n) (M : Matrix (Fin n) (Fin n) ℂ) (hM : ∀ i j, star (M i j) = M i j) (s : Chol.State n)
    (h : RealState s) : RealState (Chol.step amax M s) := by
  have h1 : ∀ v ∈ s.vecs ++ [s.next], ∀ i, star (v i) = v i := by
    intro v hv i
    rcases List.mem_append.1 hv with hv | hv
    · exact h.1 v hv i
    · rw [List.mem_singleton.1 hv]
      exact h.2 i
  refine ⟨h1, fun i => ?_⟩
  simp only [Chol.step]
  rw [star_div₀, star_sub, hM, ofReal_star, list_star]
  intro z hz
  obtain ⟨v, hv, rfl⟩ := List.mem_map.1 hz
  rw [star_mul', star_star, h1 v hv, h1 v hv]

theorem loop_real (amax : (Fin n → ℝ) → Fin n) (M : Matrix (Fin n) (Fin n) ℂ) (hM : ∀ i j, star (M i j) = M i j) (tol : ℝ) :
    ∀ (k : Nat) (s : Chol.State n) (vs : List (Fin n → ℂ)), RealState s → Chol.loop amax M tol k s = some vs →
      ∀ v ∈ vs, ∀ i, star (v i) = v i
  | 0, s, vs, h, hl => by
    rw [Chol.loop_zero] at hl
    split_ifs at hl
    obtain rfl := Option.some.inj hl
    exact h.1
  | k + 1, s, vs, h, hl => by
    rw [Chol.loop_succ] at hl
    split_ifs at hl
    · exact loop_real amax M hM tol k _ vs (step_real amax M hM s h) hl
    · obtain rfl := Option.some.inj hl
      exact h.1

theorem cholesky_real (amax : (Fin n → ℝ) → Fin n) (M : Matrix (Fin n) (Fin n) ℂ) (hM : ∀ i j, star (M i j) = M i j) (tol : ℝ) (k : Nat)
    (vs : List (Fin n → ℂ)) (hl : Chol.modifiedCholesky amax M tol k = some vs) : ∀ v ∈ vs, ∀ i, star (v i) = v i := by
  cases k with
  | zero => simp [Chol.modifiedCholesky] at hl
  | succ k =>
    refine loop_real amax M hM tol k _ vs ⟨?_, fun i => ?_⟩ hl
    · intro v hv
      exact absurd hv List.not_mem_nil
    · simp only [Chol.start]
      rw [star_div₀, hM, ofReal_star]

/-! ## The conversion -/

/-- Place of a pair of orbitals. -/
theorem pair_val (i k : Fin n) : ((finProdFinEquiv (i, k) : Fin (n * n)) : Nat) = i * n + k := by
  rw [finProdFinEquiv_apply_val]
  ring

theorem eriMatrix_pair (h2 : Quad → ℂ) (i k l j : Fin n) :
    eriMatrix n h2 (finProdFinEquiv (i, k)) (finProdFinEquiv (l, j)) = h2 (i, k, j, l) := by
  simp only [eriMatrix, Matrix.of_apply, Equiv.symm_apply_apply]

/-- What the array of vectors holds. -/
theorem convert_chol (f : FFile) (hn : 0 < f.norb) (amax : (Fin (f.norb * f.norb) → ℝ) → Fin (f.norb * f.norb))
    (sym : Nat) (thresh : ℝ) (wc : Bool) (r : FRead) (hr : readFcidump f sym = some r)
    (file : HFile) (hf : convert f amax sym thresh wc = some file) :
    ∃ vs, Chol.modifiedCholesky amax (eriMatrix f.norb r.h2) thresh (20 * f.norb) = some vs ∧ (readDense file).chol.cols = vs.length ∧
      ∀ (p : Fin (f.norb * f.norb)) (x : Fin vs.length), (readDense file).chol.at p x =
        if cplxChol f.norb r.h2 wc = true then vs[x] p else ((vs[x] p).re : ℂ) := by
  simp only [convert, hr, Option.bind_some] at hf
  rw [Option.map_eq_some_iff] at hf
  obtain ⟨vs, hvs, rfl⟩ := hf
  refine ⟨vs, hvs, ?_⟩
  cases hcc : cplxChol f.norb r.h2 wc with
  | true =>
    obtain ⟨d1, d2, d3, d4, d5, d6⟩ := dense_cplx hn (fun i j : Fin f.norb => r.h1 i j) (fun p (x : Fin vs.length) => vs[x] p) r.nelec r.ecore
    exact ⟨d3, fun p x => (d2 p x).trans (if_pos rfl).symm⟩
  | false =>
    obtain ⟨d1, d2, d3, d4, d5, d6⟩ := dense_real hn (fun i j : Fin f.norb => r.h1 i j) (fun p (x : Fin vs.length) => vs[x] p) r.nelec r.ecore
    exact ⟨d3, fun p x => (d2 p x).trans (if_neg Bool.false_ne_true).symm⟩

open scoped ComplexOrder in
/-- **C101**: the conversion keeps the one-body matrix, the core energy and the electron numbers, and its vectors reproduce the integrals
within the threshold as `(ik|jl) = sum_x L_ik conj(L_lj)`, if complex output is asked for, an integral has an imaginary part above 1e-14, or
all are real. -/
theorem convert_hermitian (f : FFile) (hn : 0 < f.norb) (amax : (Fin (f.norb * f.norb) → ℝ) → Fin (f.norb * f.norb))
    (ham : ∀ (x : Fin (f.norb * f.norb) → ℝ) (i : Fin (f.norb * f.norb)), x i ≤ x (amax x)) (sym : Nat) (thresh : ℝ) (ht : 0 ≤ thresh) (wc : Bool) (r : FRead) (hr : readFcidump f sym = some r)
    (hM : (eriMatrix f.norb r.h2).PosSemidef)
    (hc : (wc = true ∨ ∃ i k j l : Fin f.norb, 1 / 10 ^ 14 < |(r.h2 (i, k, j, l)).im|) ∨ (∀ i j : Fin f.norb, star (r.h1 i j) = r.h1 i j) ∧
      ∀ i k j l : Fin f.norb, star (r.h2 (i, k, j, l)) = r.h2 (i, k, j, l))
    (file : HFile) (hf : convert f amax sym thresh wc = some file) :
    let s := readDense file
    s.nmo = f.norb ∧ s.enuc = r.ecore ∧ s.nelec = r.nelec ∧ s.chol.cols < 20 * f.norb ∧ (∀ i j : Fin f.norb, s.hcore.at i j = r.h1 i j) ∧
      ∀ i k j l : Fin f.norb, ‖(∑ x ∈ Finset.range s.chol.cols, s.chol.at (i * s.nmo + k) x * star (s.chol.at (l * s.nmo + j) x)) -
        r.h2 (i, k, j, l)‖ ≤ thresh := by
  simp only [convert, hr, Option.bind_some] at hf
  rw [Option.map_eq_some_iff] at hf
  obtain ⟨vs, hvs, rfl⟩ := hf
  obtain ⟨b1, _, b3⟩ := Chol.modifiedCholesky_spec amax ham _ hM thresh ht _ vs hvs
  have key : ∀ (s : HRead), s.nmo = f.norb → s.chol.cols = vs.length →
      (∀ (p : Fin (f.norb * f.norb)) (x : Fin vs.length), s.chol.at p x = vs[x] p) →
      ∀ i k j l : Fin f.norb, ‖(∑ x ∈ Finset.range s.chol.cols, s.chol.at (i * s.nmo + k) x * star (s.chol.at (l * s.nmo + j) x)) -
        r.h2 (i, k, j, l)‖ ≤ thresh := by
    intro s h1 h2 h3 i k j l
    have h4 := b1 (finProdFinEquiv (i, k)) (finProdFinEquiv (l, j))
    rw [eriMatrix_pair, norm_sub_rev] at h4
    rw [h1, h2, ← pair_val, ← pair_val, Finset.sum_range]
    simp only [h3]
    have h5 := Fin.sum_univ_fun_getElem vs fun v => v (finProdFinEquiv (i, k)) * star (v (finProdFinEquiv (l, j)))
    rw [← h5] at h4
    exact h4
  cases hcc : cplxChol f.norb r.h2 wc with
  | true =>
    obtain ⟨d1, d2, d3, d4, d5, d6⟩ := dense_cplx hn (fun i j : Fin f.norb => r.h1 i j) (fun p (x : Fin vs.length) => vs[x] p) r.nelec r.ecore
    exact ⟨d5, d4, d6, by rw [Bool.not_true, d3]; exact b3, d1, key _ d5 d3 d2⟩
  | false =>
    obtain ⟨c1, c2⟩ := hc.resolve_left fun h => by
      have : cplxChol f.norb r.h2 wc = true := by
        rcases h with h | h
        · rw [cplxChol, h, Bool.true_or]
        · rw [cplxChol, decide_eq_true h, Bool.or_true]
      rw [this] at hcc
      exact Bool.false_ne_true hcc.symm
    have hreal := cholesky_real amax (eriMatrix f.norb r.h2) (fun a b => by
      obtain ⟨p, rfl⟩ := finProdFinEquiv.surjective a
      obtain ⟨q, rfl⟩ := finProdFinEquiv.surjective b
      rw [eriMatrix_pair]
      exact c2 _ _ _ _) thresh _ vs hvs
    obtain ⟨d1, d2, d3, d4, d5, d6⟩ := dense_real hn (fun i j : Fin f.norb => r.h1 i j) (fun p (x : Fin vs.length) => vs[x] p) r.nelec r.ecore
    refine ⟨d5, d4, d6, by rw [Bool.not_false, d3]; exact b3, fun i j => ?_, key _ d5 d3 fun p x => ?_⟩
    · exact (d1 i j).trans (Complex.conj_eq_iff_re.1 (c1 i j))
    · exact (d2 p x).trans (Complex.conj_eq_iff_re.1 (hreal _ (List.getElem_mem _) p))

open scoped ComplexOrder in
/-- **C101**: a run on the converted file of real integrals sees the one-body matrix, the core energy and, within the threshold, the
integrals of the FCIDUMP file. -/
theorem convert_real (f : FFile) (hn : 0 < f.norb) (hl : ∀ ln ∈ f.lines, ∃ v q, ln = Line.five v q)
    (amax : (Fin (f.norb * f.norb) → ℝ) → Fin (f.norb * f.norb)) (ham : ∀ (x : Fin (f.norb * f.norb) → ℝ) (i : Fin (f.norb * f.norb)), x i ≤ x (amax x)) (thresh : ℝ) (ht : 0 ≤ thresh) (wc : Bool)
    (r : FRead) (hr : readFcidump f 8 = some r) (hM : (eriMatrix f.norb r.h2).PosSemidef) (file : HFile)
    (hf : convert f amax 8 thresh wc = some file) :
    let s := readDense file
    s.nmo = f.norb ∧ s.enuc = r.ecore ∧ s.nelec = r.nelec ∧ (∀ i j : Fin f.norb, s.hcore.at i j = r.h1 i j) ∧
      ∀ i j k l : Fin f.norb, ‖hijkl s i j k l - r.h2 (i, k, j, l)‖ ≤ thresh := by
  obtain ⟨q1, q2, q3, q4, _⟩ := read_real8 f hl r hr
  obtain ⟨a1, a2, a3, _, a5, a6⟩ := convert_hermitian f hn amax ham 8 thresh ht wc r hr hM (Or.inr ⟨fun i j => q1 i j, fun i k j l => q2 _⟩)
    file hf
  refine ⟨a1, a2, a3, a5, fun i j k l => ?_⟩
  have h1 := a6 i k l j
  have h2 : r.h2 (i, k, l, j) = r.h2 (i, k, j, l) := by rw [← q4 i k l j, q3 j l i k, q4]
  rw [h2] at h1
  rw [hijkl, Finset.sum_congr rfl fun x hx => ?_]
  · exact h1
  · obtain ⟨vs, hvs, b1, b2⟩ := convert_chol f hn amax 8 thresh wc r hr file hf
    have hx' : x < vs.length := by rw [← b1]; exact Finset.mem_range.1 hx
    have hreal := cholesky_real amax (eriMatrix f.norb r.h2) (fun a b => q2 _) thresh _ vs hvs
    rw [a1, ← pair_val j l, b2 _ ⟨x, hx'⟩]
    congr 1
    split_ifs
    · exact (hreal _ (List.getElem_mem _) _).symm
    · exact (ofReal_star _).symm

open scoped ComplexOrder in
/-- **C101**: with fewer than twenty orbitals the conversion succeeds. -/
theorem convert_succeeds (f : FFile) (hn : 0 < f.norb) (hlt : f.norb < 20)
    (amax : (Fin (f.norb * f.norb) → ℝ) → Fin (f.norb * f.norb)) (ham : ∀ (x : Fin (f.norb * f.norb) → ℝ) (i : Fin (f.norb * f.norb)), x i ≤ x (amax x)) (sym : Nat) (thresh : ℝ)
    (ht : 0 ≤ thresh) (wc : Bool) (r : FRead) (hr : readFcidump f sym = some r) (hM : (eriMatrix f.norb r.h2).PosSemidef) :
    ∃ file, convert f amax sym thresh wc = some file := by
  obtain ⟨vs, hvs⟩ := Chol.modifiedCholesky_exists amax ham _ hM thresh ht (20 * f.norb) (Nat.mul_lt_mul_of_pos_right hlt hn)
  simp only [convert, hr, Option.bind_some, hvs, Option.map_some]
  exact ⟨_, rfl⟩

end Verif.Convert
