import Verif.KPoint.Write

/-!
# What the reader of the k-point Hamiltonian returns, with examples (C110)
-/

namespace Verif.KPoint

open Files Finset

variable {nkp : Nat} (y : Sizes nkp) (L : Fin nkp → Fin nkp → Nat → Nat → ℂ)

/-- A row of numbers holds the vectors of a momentum transfer, orbital pair after orbital pair. -/
def Holds (Q : Fin nkp) (v : Fin nkp → Nat → ℂ) : Prop := ∀ k r (n : Fin (y.nchol Q)), v k (r * y.nchol Q + n) = L Q k r n

/-- The matrices that the reader and a reshape give for all momentum transfers. -/
def Reads (stored : Fin nkp → Option (Fin nkp → Nat → ℂ)) (minusK : Fin nkp → Fin nkp) (A : Fin nkp → Fin nkp → Nat → Nat → ℂ) : Prop :=
  ∀ Q, (getChol stored minusK Q).map (reshape (y.nchol Q)) = some (.mats (A Q))

theorem kEri_congr {A : Fin nkp → Fin nkp → Nat → Nat → ℂ} (h : ∀ Q k r (n : Fin (y.nchol Q)), A Q k r n = L Q k r n) (a b c d : Orb y) :
    kEri y A a b c d = kEri y L a b c d := by
  unfold kEri
  simp only [h]

/-- If the file has every momentum transfer, the integrals of what is read are those of the vectors stored. -/
theorem all_stored (stored : Fin nkp → Option (Fin nkp → Nat → ℂ)) (minusK : Fin nkp → Fin nkp)
    (hst : ∀ Q, ∃ v, stored Q = some v ∧ Holds y L Q v) : ∃ A, Reads y stored minusK A ∧ ∀ a b c d, kEri y A a b c d = kEri y L a b c d := by
  choose v hv hL using hst
  refine ⟨fun Q k r n => v Q k (r * y.nchol Q + n), fun Q => ?_, kEri_congr y L fun Q k r n => hL Q k r n⟩
  simp [getChol, hv Q, reshape]

/-- If a momentum transfer is not in the file, what is read for it is the conjugate of the vectors of the opposite one, at the
same k-point and the same place: right if and only if those vectors do not change when the k-points and the orbitals of
each pair are exchanged. -/
theorem missing_right_iff (stored : Fin nkp → Option (Fin nkp → Nat → ℂ)) (minusK : Fin nkp → Fin nkp) (hp : Paired y L minusK) (Q : Fin nkp)
    (hQ : stored Q = none) {v : Fin nkp → Nat → ℂ} (hm : stored (minusK Q) = some v) (hv : Holds y L (minusK Q) v)
    {A : Fin nkp → Nat → Nat → ℂ} (hA : (getChol stored minusK Q).map (reshape (y.nchol Q)) = some (.mats A)) :
    (∀ k (i : Fin (y.nmo k)) (j : Fin (y.nmo (y.qk Q k))) (n : Fin (y.nchol Q)),
      A k (i * y.nmo (y.qk Q k) + j) n = L Q k (i * y.nmo (y.qk Q k) + j) n) ↔
    ∀ k (i : Fin (y.nmo k)) (j : Fin (y.nmo (y.qk Q k))) (n : Fin (y.nchol Q)),
      L (minusK Q) k (i * y.nmo (y.qk Q k) + j) n = L (minusK Q) (y.qk Q k) (j * y.nmo k + i) n := by
  have e : ∀ k r (n : Fin (y.nchol Q)), A k r n = star (L (minusK Q) k r n) := by
    intro k r n
    simp only [getChol, hQ, hm, Option.map_some, reshape, Option.some.injEq, KArr.mats.injEq] at hA
    have h1 := hv k r (Fin.cast (hp.nchol Q).symm n)
    rw [Fin.val_cast, hp.nchol Q] at h1
    rw [← hA]
    beta_reduce
    rw [h1]
  refine forall_congr' fun k => forall_congr' fun i => forall_congr' fun j => forall_congr' fun n => ?_
  rw [e, hp.adj Q k i j n]
  constructor
  · intro h; rw [← h, star_star]
  · intro h; rw [h, star_star]

/-! ## Three k-points with one orbital each -/

/-- One orbital for each k-point, one vector for each momentum transfer. -/
def ring3 : Sizes 3 := ⟨fun _ => 1, fun _ => 1, fun Q k => k - Q⟩

/-- The vectors of momentum transfer one. -/
def one3 (k : Fin 3) : ℂ := (k : Nat) + 1

/-- Vectors that belong together. -/
def vec3 (Q k : Fin 3) (_ _ : Nat) : ℂ := if Q = 0 then 1 else if Q = 1 then one3 k else one3 (k + 1)

theorem paired3 : Paired ring3 vec3 (fun Q => -Q) where
  invol := fun Q => neg_neg Q
  back := by intro Q k; simp [ring3]
  nchol := fun _ => rfl
  adj := by
    intro Q k i j n
    have e1 : (-1 : Fin 3) = 2 := rfl
    have e2 : (-2 : Fin 3) = 1 := rfl
    have e3 : (1 + 1 : Fin 3) = 2 := rfl
    have e4 : (2 + 1 : Fin 3) = 0 := rfl
    have e5 : (1 - 2 : Fin 3) = 2 := rfl
    fin_cases Q <;> fin_cases k <;> simp [vec3, one3, ring3, e1, e2, e3, e4, e5]

/-- The file has no momentum transfer two, which is the opposite of one. -/
def stored3 (Q : Fin 3) : Option (Fin 3 → Nat → ℂ) := if Q = 2 then none else some fun k r => vec3 Q k r 0

/-- The vectors of a complete file are right and symmetric; those that the reader makes up for the momentum transfer that is not
stored give another integral, and exchanging the electrons changes it. -/
theorem missing_wrong : Paired ring3 vec3 (fun Q => -Q) ∧ (∀ Q v, stored3 Q = some v → Holds ring3 vec3 Q v) ∧
    ∃ A, Reads ring3 stored3 (fun Q => -Q) A ∧ ∃ a b c d : Orb ring3,
      kEri ring3 A a b c d = 1 ∧ kEri ring3 vec3 a b c d = 4 ∧ kEri ring3 A c d a b = 4 ∧ kEri ring3 vec3 c d a b = 4 := by
  have e3 : (1 + 1 : Fin 3) = 2 := rfl
  have e4 : (2 + 1 : Fin 3) = 0 := rfl
  have e5 : (1 - 2 : Fin 3) = 2 := rfl
  have e1 : (-1 : Fin 3) = 2 := rfl
  have e2 : (-2 : Fin 3) = 1 := rfl
  refine ⟨paired3, ?_, fun Q k _ _ => if Q = 2 then star (one3 k) else vec3 Q k 0 0, ?_, ⟨0, ⟨0, by decide⟩⟩, ⟨1, ⟨0, by decide⟩⟩,
    ⟨1, ⟨0, by decide⟩⟩, ⟨0, ⟨0, by decide⟩⟩, ?_, ?_, ?_, ?_⟩
  · intro Q v h k r n
    simp only [stored3] at h
    split_ifs at h
    rw [← Option.some.inj h]
    rfl
  · intro Q
    fin_cases Q <;> simp [getChol, stored3, reshape, e2] <;> rfl
  all_goals
    simp [kEri, ring3, Fin.sum_univ_three, vec3, one3, e1, e2, e3, e4, e5]
  · rfl
  all_goals
    norm_num
    rfl

/-! ## Two k-points with one and two orbitals -/

/-- One orbital for the first k-point, two for the second. -/
def two : Sizes 2 := ⟨fun k => if k = 0 then 1 else 2, fun _ => 1, fun Q k => k - Q⟩

/-- Vectors that belong together, not real. -/
noncomputable def vecTwo (Q k : Fin 2) (r _ : Nat) : ℂ :=
  if Q = 0 then (if k = 0 then 1 else [1, Complex.I, -Complex.I, 2].getD r 0)
  else if k = 0 then [1, Complex.I].getD r 0 else [1, -Complex.I].getD r 0

theorem pairedTwo : Paired two vecTwo (fun Q => -Q) where
  invol := fun Q => neg_neg Q
  back := by intro Q k; simp [two]
  nchol := fun _ => rfl
  adj := by
    intro Q k i j n
    fin_cases Q <;> fin_cases k <;> revert i j <;> simp only [two] <;> simp [vecTwo, Fin.forall_fin_two]
    exact (Complex.conj_ofNat 2).symm

/-- The hypotheses of the theorem are met, with symmetry 4; a complex integral between the k-points. -/
theorem example_two : ∃ f r, writeK id two (fun k i j => if k = 0 then 0 else if i = j then 1 else 0) (fun Q => .mats (vecTwo Q)) 3 3 (1, 1)
      (1 / 100) 4 false true = some f ∧ readFcidump f 4 = some r ∧ r.h2 (0, 2, 1, 0) = Complex.I ∧ r.h2 (0, 1, 0, 0) = 0 ∧
      r.h1 1 1 = 1 ∧ r.h1 0 1 = 0 ∧ r.ecore = 3 := by
  have htot : total two = 3 := by simp [total, two, Fin.sum_univ_two]
  obtain ⟨f, r, h1, h2, h3, h4, h5, -⟩ := read_write_kpoint two vecTwo id (fun _ => rfl) (fun k => sub_right_injective)
    (fun k i j => if k = 0 then 0 else if i = j then 1 else 0) (by intro k i j; simp only [eq_comm]; split_ifs <;> simp) 3 (1, 1)
    (1 / 100) (by norm_num) 4 (by norm_num) (fun _ => paired_exchange two vecTwo pairedTwo) (by norm_num)
  rw [htot] at h1
  let a : Orb two := ⟨0, ⟨0, by decide⟩⟩
  let b : Orb two := ⟨1, ⟨0, by decide⟩⟩
  let c : Orb two := ⟨1, ⟨1, by decide⟩⟩
  have na : (num two a : Nat) = 0 := by rw [← num_val]; rfl
  have nb : (num two b : Nat) = 1 := by rw [← num_val]; rfl
  have nc : (num two c : Nat) = 2 := by rw [← num_val]; rfl
  refine ⟨f, r, h1, h2, ?_, ?_, ?_, ?_, ?_⟩
  · have := h3 a c b a
    rw [na, nb, nc] at this
    have hv : kEri two vecTwo a c b a = Complex.I := by
      have e : (-1 : Fin 2) = 1 := rfl
      have u : (Finset.univ : Finset (Fin (two.nchol 1))).card = 1 := rfl
      simp only [two] at u
      simp [kEri, two, Fin.sum_univ_two, vecTwo, a, b, c, e, u]
    rw [this, hv, if_pos (by norm_num)]
    apply Complex.ext <;> simp [arrives]
  · have := h3 a b a a
    rw [na, nb] at this
    have hv : kEri two vecTwo a b a a = 0 := by
      simp [kEri, two, Fin.sum_univ_two, vecTwo, a, b]
    rw [this, hv, if_neg (by norm_num)]
  · have := h4 b b
    rw [nb] at this
    have hv : coreAt two (fun k i j => if k = 0 then 0 else if i = j then 1 else 0) b b = 1 := by simp [coreAt, b]
    rw [this, hv, if_pos (by norm_num)]
    simp [arrives]
    rfl
  · have := h4 a b
    rw [na, nb] at this
    have hv : coreAt two (fun k i j => if k = 0 then 0 else if i = j then 1 else 0) a b = 0 := by simp [coreAt, a, b]
    rw [this, hv, if_neg (by norm_num)]
  · rw [h5]; simp

end Verif.KPoint
