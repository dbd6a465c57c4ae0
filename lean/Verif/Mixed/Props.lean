import Verif.Mixed.Model
import Mathlib.Algebra.BigOperators.Group.List.Basic
import Mathlib.Algebra.Order.BigOperators.Group.List
import Mathlib.Tactic.Ring
import Mathlib.Tactic.Linarith
import Mathlib.Tactic.Positivity

/-!
# Block averages of the mixed estimator: C35, C36, C37

The rows a run writes are given in closed form as sums over the observations (step, walker) of each
block, for any number of ranks, walkers, steps and blocks.
-/

namespace Verif.Mixed

/-! ## Accumulators form a commutative monoid -/

instance : AddCommMonoid Acc where
  add_assoc a b c := by
    apply Acc.ext <;> exact add_assoc _ _ _
  zero_add a := by apply Acc.ext <;> exact zero_add _
  add_zero a := by apply Acc.ext <;> exact add_zero _
  add_comm a b := by apply Acc.ext <;> exact add_comm _ _
  nsmul := nsmulRec

/-- What one walker adds at one step. -/
noncomputable def contrib (c : Cfg) (so : Nat × Obs) : Acc :=
  if c.free then addFree c so.1 0 so.2 else addImp c so.1 0 so.2

theorem addFree_eq (c : Cfg) (step : Nat) (a : Acc) (o : Obs) :
    addFree c step a o = a + addFree c step 0 o := by
  have z : ∀ x : ℂ, (0 : ℂ) + x = x := zero_add
  unfold addFree
  dsimp only
  split_ifs <;> apply Acc.ext <;>
    first
      | (show _ = _ + (0 + _); rw [z])
      | exact (add_zero _).symm

theorem addImp_eq (c : Cfg) (step : Nat) (a : Acc) (o : Obs) :
    addImp c step a o = a + addImp c step 0 o := by
  have z : ∀ x : ℂ, (0 : ℂ) + x = x := zero_add
  unfold addImp
  dsimp only
  split_ifs <;> apply Acc.ext <;>
    first
      | (show _ = _ + (0 + _); rw [z])
      | exact (add_zero _).symm

theorem update_eq (c : Cfg) (step : Nat) (a : Acc) (ws : List Obs) :
    update c step a ws = a + ((ws.map fun o => (step, o)).map (contrib c)).sum := by
  have h1 : ∀ a o, (if c.free then addFree c step else addImp c step) a o =
      a + contrib c (step, o) := by
    intro a o
    unfold contrib
    split_ifs
    · exact addFree_eq c step a o
    · exact addImp_eq c step a o
  unfold update
  induction ws generalizing a with
  | nil => simp
  | cons o ws ih =>
    rw [List.foldl_cons, ih, h1, List.map_cons, List.map_cons, List.sum_cons, add_assoc]

/-! ## Observations of a block -/

/-- All (step, walker) pairs of the steps `step, step+1, …`, over all ranks. -/
def samples : Nat → List (List (List Obs)) → List (Nat × Obs)
  | _, [] => []
  | step, o :: os => (o.flatten.map fun w => (step, w)) ++ samples (step + 1) os

/-- Total of the accumulators of all ranks. -/
noncomputable def total (s : St) : Acc := s.accs.sum

theorem foldl_add_eq_sum (l : List Acc) : l.foldl (· + ·) 0 = l.sum := by
  have : ∀ a : Acc, l.foldl (· + ·) a = a + l.sum := by
    induction l with
    | nil => intro a; simp
    | cons x l ih => intro a; rw [List.foldl_cons, ih, List.sum_cons, add_assoc]
  rw [this, zero_add]

theorem scale_zero (n : Nat) : scale n 0 = 0 := by
  apply Acc.ext <;> first | rfl | exact zero_div _

theorem scale_add (n : Nat) (a b : Acc) : scale n (a + b) = scale n a + scale n b := by
  apply Acc.ext <;> first | rfl | exact add_div _ _ _

theorem scale_sum (n : Nat) (l : List Acc) : (l.map (scale n)).sum = scale n l.sum := by
  induction l with
  | nil => exact (scale_zero n).symm
  | cons a l ih => rw [List.map_cons, List.sum_cons, ih, List.sum_cons, scale_add]

theorem total_updateAll (c : Cfg) (step : Nat) (o : List (List Obs)) (s : St)
    (hlen : o.length = s.accs.length) :
    total (updateAll c step o s) =
      total s + ((o.flatten.map fun w => (step, w)).map (contrib c)).sum ∧
    (updateAll c step o s).accs.length = s.accs.length ∧
    (updateAll c step o s).rows = s.rows := by
  refine ⟨?_, by simp [updateAll, hlen], rfl⟩
  show (List.zipWith (update c step) s.accs o).sum = s.accs.sum + _
  generalize s.accs = l at hlen
  induction l generalizing o with
  | nil =>
    rw [List.length_nil, List.length_eq_zero_iff] at hlen
    subst hlen
    simp
  | cons a l ih =>
    cases o with
    | nil => simp at hlen
    | cons w o =>
      simp only [List.length_cons, add_left_inj] at hlen
      rw [List.zipWith_cons_cons, List.sum_cons, ih o hlen, update_eq, List.flatten_cons,
        List.map_append, List.map_append, List.sum_append, List.sum_cons]
      abel

theorem printStep_skip (c : Cfg) (step : Nat) (ns : Option Nat) (s : St)
    (h : step % c.nsteps ≠ 0) : printStep c step ns s = s := if_pos h

theorem printStep_row (c : Cfg) (step : Nat) (ns : Option Nat) (s : St)
    (h : step % c.nsteps = 0) :
    (printStep c step ns s).rows = rowOf step (scale (ns.getD c.nsteps) (total s)) :: s.rows ∧
    (printStep c step ns s).accs = List.replicate s.accs.length 0 ∧
    (printStep c step ns s).shift =
      ((rowOf step (scale (ns.getD c.nsteps) (total s))).ehyb,
       (rowOf step (scale (ns.getD c.nsteps) (total s))).eproj) := by
  unfold printStep
  rw [if_neg (not_not.mpr h)]
  dsimp only
  rw [foldl_add_eq_sum, scale_sum]
  exact ⟨rfl, List.map_const' .., rfl⟩

theorem total_zero (s : St) (n : Nat) (h : s.accs = List.replicate n 0) : total s = 0 := by
  unfold total; rw [h]; simp

/-! ## One block -/

/-- Steps inside a block print nothing and only accumulate. -/
theorem loop_inside (c : Cfg) (os : List (List (List Obs))) (step : Nat) (s : St)
    (hr : ∀ o ∈ os, o.length = s.accs.length)
    (hin : ∀ t, step ≤ t → t < step + os.length → t % c.nsteps ≠ 0) :
    (loop c step os s).rows = s.rows ∧ (loop c step os s).accs.length = s.accs.length ∧
    total (loop c step os s) = total s + ((samples step os).map (contrib c)).sum := by
  induction os generalizing step s with
  | nil => simp [loop, samples]
  | cons o os ih =>
    have hu := total_updateAll c step o s (hr o (by simp))
    have hs : step % c.nsteps ≠ 0 := hin step (le_refl _) (by simp)
    rw [loop, printStep_skip c step none _ hs]
    have := ih (step + 1) (updateAll c step o s)
      (fun x hx => by rw [hu.2.1]; exact hr x (by simp [hx]))
      (fun t h1 h2 => hin t (by omega) (by simp only [List.length_cons]; omega))
    refine ⟨this.1.trans hu.2.2, this.2.1.trans hu.2.1, ?_⟩
    rw [this.2.2, hu.1, samples, List.map_append, List.sum_append, add_assoc]

theorem loop_append (c : Cfg) (a b : List (List (List Obs))) (step : Nat) (s : St) :
    loop c step (a ++ b) s = loop c (step + a.length) b (loop c step a s) := by
  induction a generalizing step s with
  | nil => rfl
  | cons o a ih =>
    rw [List.cons_append, loop, ih, loop, List.length_cons]
    congr 1
    omega

theorem samples_append (a b : List (List (List Obs))) (step : Nat) :
    samples step (a ++ b) = samples step a ++ samples (step + a.length) b := by
  induction a generalizing step with
  | nil => rfl
  | cons o a ih =>
    rw [List.cons_append, samples, ih, samples, List.length_cons, List.append_assoc]
    congr 3
    omega

/-- The row of a block whose observations are `l`. -/
noncomputable def blockRow (c : Cfg) (step : Nat) (l : List (Nat × Obs)) : Row :=
  rowOf step (scale c.nsteps ((l.map (contrib c)).sum))

/-- **One block**: `nsteps` steps starting after a block end write exactly one row, made of what was
in the accumulators and the observations of the block, and leave the accumulators of all ranks at
zero. -/
theorem loop_block (c : Cfg) (hn : 0 < c.nsteps) (k : Nat) (os : List (List (List Obs)))
    (hlen : os.length = c.nsteps) (s : St) (hr : ∀ o ∈ os, o.length = s.accs.length) :
    let s' := loop c (k * c.nsteps + 1) os s
    let r := rowOf ((k + 1) * c.nsteps)
      (scale c.nsteps (total s + ((samples (k * c.nsteps + 1) os).map (contrib c)).sum))
    s'.rows = r :: s.rows ∧ s'.accs = List.replicate s.accs.length 0 ∧
      s'.shift = (r.ehyb, r.eproj) := by
  intro s' r
  obtain ⟨os', o, rfl⟩ : ∃ os' o, os = os' ++ [o] := by
    rcases List.eq_nil_or_concat os with h | ⟨l, b, h⟩
    · subst h; simp at hlen; omega
    · exact ⟨l, b, by simpa using h⟩
  simp only [List.length_append, List.length_singleton] at hlen
  have hin := loop_inside c os' (k * c.nsteps + 1) s (fun x hx => hr x (by simp [hx]))
    (fun t h1 h2 => by
      intro h
      obtain ⟨d, hd⟩ := Nat.dvd_of_mod_eq_zero h
      have h3 : k * c.nsteps < c.nsteps * d := by omega
      have h4 : c.nsteps * d < (k + 1) * c.nsteps := by rw [add_mul, one_mul]; omega
      have h5 : k < d := by rw [mul_comm] at h3; exact Nat.lt_of_mul_lt_mul_left h3
      have h6 : d < k + 1 := by rw [mul_comm] at h4; exact Nat.lt_of_mul_lt_mul_right h4
      omega)
  set s1 := loop c (k * c.nsteps + 1) os' s with hs1
  have hstep : k * c.nsteps + 1 + os'.length = (k + 1) * c.nsteps := by
    rw [add_mul, one_mul]; omega
  have hu := total_updateAll c ((k + 1) * c.nsteps) o s1
    (by rw [hin.2.1]; exact hr o (by simp))
  have hp := printStep_row c ((k + 1) * c.nsteps) none
    (updateAll c ((k + 1) * c.nsteps) o s1) (Nat.mul_mod_left _ _)
  have hs' : s' = printStep c ((k + 1) * c.nsteps) none (updateAll c ((k + 1) * c.nsteps) o s1) := by
    show loop c _ _ _ = _
    rw [loop_append, ← hs1, hstep]
    rfl
  have hrr : r = rowOf ((k + 1) * c.nsteps)
      (scale ((none : Option Nat).getD c.nsteps) (total (updateAll c ((k + 1) * c.nsteps) o s1))) := by
    show rowOf _ _ = _
    rw [hu.1, hin.2.2, samples_append, hstep, List.map_append, List.sum_append, add_assoc]
    simp [samples]
  rw [hs', hp.1, hp.2.1, hp.2.2, hu.2.1, hu.2.2, hin.1, hin.2.1, ← hrr]
  exact ⟨rfl, rfl, rfl⟩

/-! ## Whole runs -/

/-- Rows of successive blocks, the first one being number `k`. -/
noncomputable def blockRows (c : Cfg) : Nat → List (List (List (List Obs))) → List Row
  | _, [] => []
  | k, b :: bs => blockRow c ((k + 1) * c.nsteps) (samples (k * c.nsteps + 1) b) ::
      blockRows c (k + 1) bs

/-- **C36**: from zeroed accumulators, `B` blocks of `nsteps` steps and any number of further steps
short of a block write exactly `B` rows, each a function of the observations of its block alone. -/
theorem loop_blocks (c : Cfg) (hn : 0 < c.nsteps) (bs : List (List (List (List Obs))))
    (rest : List (List (List Obs))) (k : Nat) (s : St)
    (hb : ∀ b ∈ bs, b.length = c.nsteps) (hrest : rest.length < c.nsteps)
    (hr : ∀ b ∈ bs, ∀ o ∈ b, o.length = s.accs.length) (hr' : ∀ o ∈ rest, o.length = s.accs.length)
    (hz : s.accs = List.replicate s.accs.length 0) :
    (loop c (k * c.nsteps + 1) (bs.flatten ++ rest) s).rows =
      (blockRows c k bs).reverse ++ s.rows := by
  induction bs generalizing k s with
  | nil =>
    rw [List.flatten_nil, List.nil_append]
    refine (loop_inside c rest (k * c.nsteps + 1) s hr' ?_).1
    intro t h1 h2 h
    obtain ⟨d, hd⟩ := Nat.dvd_of_mod_eq_zero h
    have h3 : c.nsteps * k < c.nsteps * d := by rw [mul_comm]; omega
    have h4 : d * c.nsteps < (k + 1) * c.nsteps := by rw [add_mul, one_mul, mul_comm]; omega
    have h5 : k < d := Nat.lt_of_mul_lt_mul_left h3
    have h6 : d < k + 1 := Nat.lt_of_mul_lt_mul_right h4
    omega
  | cons b bs ih =>
    have h1 := loop_block c hn k b (hb b (by simp)) s (hr b (by simp))
    dsimp only at h1
    rw [total_zero s _ hz, zero_add] at h1
    rw [List.flatten_cons, List.append_assoc, loop_append]
    have hst : k * c.nsteps + 1 + b.length = (k + 1) * c.nsteps + 1 := by
      rw [hb b (by simp), add_mul, one_mul]; omega
    rw [hst]
    have hl : (loop c (k * c.nsteps + 1) b s).accs.length = s.accs.length := by
      rw [h1.2.1]; simp
    rw [ih (k + 1) _ (fun x hx => hb x (by simp [hx]))
      (fun x hx o ho => by rw [hl]; exact hr x (by simp [hx]) o ho)
      (fun o ho => by rw [hl]; exact hr' o ho) (by rw [hl]; exact h1.2.1), h1.1, blockRows,
      List.reverse_cons, List.append_assoc]
    rfl

/-- The state `run` starts the loop from. -/
theorem run_eq (c : Cfg) (nranks : Nat) (o0 : List (List Obs)) (h0 : o0.length = nranks)
    (bs : List (List (List (List Obs)))) (rest : List (List (List Obs))) (hn : 0 < c.nsteps)
    (hb : ∀ b ∈ bs, b.length = c.nsteps) (hrest : rest.length < c.nsteps)
    (hr : ∀ b ∈ bs, ∀ o ∈ b, o.length = nranks) (hr' : ∀ o ∈ rest, o.length = nranks) :
    (run c true nranks o0 (bs.flatten ++ rest)).rows.reverse =
      rowOf 0 (scale 1 (((o0.flatten.map fun w => (0, w)).map (contrib c)).sum)) ::
        blockRows c 0 bs := by
  unfold run
  dsimp only
  set s0 : St := { accs := List.replicate nranks 0, shift := (some 0, some 0), rows := [] }
  have hl0 : s0.accs.length = nranks := List.length_replicate
  have hu := total_updateAll c 0 o0 s0 (by rw [hl0, h0])
  have hp := printStep_row c 0 (some 1) (updateAll c 0 o0 s0) (Nat.zero_mod _)
  rw [if_pos rfl]
  have hl : (printStep c 0 (some 1) (updateAll c 0 o0 s0)).accs.length = nranks := by
    rw [hp.2.1, List.length_replicate, hu.2.1, hl0]
  have := loop_blocks c hn bs rest 0 (printStep c 0 (some 1) (updateAll c 0 o0 s0)) hb hrest
    (fun b hb o ho => by rw [hl]; exact hr b hb o ho) (fun o ho => by rw [hl]; exact hr' o ho)
    (by rw [hl, hp.2.1, hu.2.1, hl0])
  rw [zero_mul, zero_add] at this
  rw [this, List.reverse_append, List.reverse_reverse, hp.1, hu.1, hu.2.2,
    total_zero s0 nranks rfl, zero_add]
  rfl

/-- **Finding (C36)**: when `verbose` is off the walkers of step 0 are accumulated but not printed,
so the first row contains them as well. -/
theorem run_quiet_leaks (c : Cfg) (nranks : Nat) (o0 : List (List Obs)) (h0 : o0.length = nranks)
    (b : List (List (List Obs))) (hn : 0 < c.nsteps) (hb : b.length = c.nsteps)
    (hr : ∀ o ∈ b, o.length = nranks) :
    (run c false nranks o0 b).rows =
      [blockRow c c.nsteps ((o0.flatten.map fun w => (0, w)) ++ samples 1 b)] := by
  unfold run
  dsimp only
  set s0 : St := { accs := List.replicate nranks 0, shift := (some 0, some 0), rows := [] }
  have hl0 : s0.accs.length = nranks := List.length_replicate
  have hu := total_updateAll c 0 o0 s0 (by rw [hl0, h0])
  have h1 := loop_block c hn 0 b hb (updateAll c 0 o0 s0)
    (fun o ho => by rw [hu.2.1, hl0]; exact hr o ho)
  dsimp only at h1
  rw [zero_mul, zero_add, one_mul] at h1
  show (loop c 1 b (updateAll c 0 o0 s0)).rows = _
  rw [h1.1, hu.1, hu.2.2, total_zero s0 nranks rfl, zero_add, blockRow, List.map_append,
    List.sum_append]

/-- Without `verbose` only the first block is affected. -/
theorem run_quiet_eq (c : Cfg) (nranks : Nat) (o0 : List (List Obs)) (h0 : o0.length = nranks)
    (b : List (List (List Obs))) (bs : List (List (List (List Obs))))
    (rest : List (List (List Obs))) (hn : 0 < c.nsteps) (hb : b.length = c.nsteps)
    (hbs : ∀ b ∈ bs, b.length = c.nsteps) (hrest : rest.length < c.nsteps)
    (hr : ∀ o ∈ b, o.length = nranks) (hrs : ∀ b ∈ bs, ∀ o ∈ b, o.length = nranks)
    (hr' : ∀ o ∈ rest, o.length = nranks) :
    (run c false nranks o0 (b ++ (bs.flatten ++ rest))).rows.reverse =
      blockRow c c.nsteps ((o0.flatten.map fun w => (0, w)) ++ samples 1 b) ::
        blockRows c 1 bs := by
  unfold run
  dsimp only
  set s0 : St := { accs := List.replicate nranks 0, shift := (some 0, some 0), rows := [] }
  have hl0 : s0.accs.length = nranks := List.length_replicate
  have hu := total_updateAll c 0 o0 s0 (by rw [hl0, h0])
  have h1 := loop_block c hn 0 b hb (updateAll c 0 o0 s0)
    (fun o ho => by rw [hu.2.1, hl0]; exact hr o ho)
  dsimp only at h1
  rw [zero_mul, zero_add, one_mul] at h1
  show (loop c 1 (b ++ (bs.flatten ++ rest)) (updateAll c 0 o0 s0)).rows.reverse = _
  have hl : (loop c 1 b (updateAll c 0 o0 s0)).accs.length = nranks := by
    rw [h1.2.1, List.length_replicate, hu.2.1, hl0]
  have h2 := loop_blocks c hn bs rest 1 (loop c 1 b (updateAll c 0 o0 s0)) hbs hrest
    (fun b hb o ho => by rw [hl]; exact hrs b hb o ho) (fun o ho => by rw [hl]; exact hr' o ho)
    (by rw [hl, h1.2.1, hu.2.1, hl0])
  rw [one_mul] at h2
  rw [loop_append, hb, add_comm 1 c.nsteps, h2, h1.1, hu.1, hu.2.2, total_zero s0 nranks rfl,
    zero_add, blockRow, List.map_append, List.sum_append, List.reverse_append, List.reverse_reverse]
  rfl

/-! ## C35: the printed energy -/

theorem sum_field (f : Acc → ℂ) (h0 : f 0 = 0) (hadd : ∀ a b, f (a + b) = f a + f b)
    (l : List Acc) : f l.sum = (l.map f).sum := by
  induction l with
  | nil => exact h0
  | cons a l ih => rw [List.sum_cons, hadd, ih, List.map_cons, List.sum_cons]

theorem sum_filter (p : Nat × Obs → Prop) [DecidablePred p] (f : Nat × Obs → ℂ)
    (l : List (Nat × Obs)) :
    (l.map fun x => if p x then f x else 0).sum = ((l.filter p).map f).sum := by
  induction l with
  | nil => rfl
  | cons a l ih =>
    rw [List.map_cons, List.sum_cons, ih, List.filter_cons]
    by_cases h : p a
    · simp [h]
    · simp [h]

/-- **C35**, importance sampling at zero temperature: the energy of a row is the sum of weight times
real local energy over the sum of weights, over all observations at energy evaluations. -/
theorem blockRow_eproj (c : Cfg) (hf : c.free = false) (ht : c.thermal = false)
    (he : c.evalEnergy = true) (step : Nat) (l : List (Nat × Obs)) :
    (blockRow c step l).eproj =
      let ev := l.filter fun x => x.1 % c.freq = 0
      ndiv (ev.map fun x => (x.2.weight : ℂ) * x.2.oratio * (x.2.E.re : ℂ)).sum
        (ev.map fun x => (x.2.weight : ℂ) * x.2.oratio).sum := by
  dsimp only
  show ndiv (Acc.enumer ((l.map (contrib c)).sum)) (Acc.edenom ((l.map (contrib c)).sum)) = _
  rw [sum_field Acc.enumer rfl (fun _ _ => rfl), sum_field Acc.edenom rfl (fun _ _ => rfl),
    List.map_map, List.map_map, ← sum_filter, ← sum_filter]
  congr 3
  · funext x
    simp only [Function.comp, contrib, hf, addImp, ht, he, if_true, Bool.false_eq_true, if_false]
    split_ifs
    · exact zero_add _
    · rfl
  · funext x
    simp only [Function.comp, contrib, hf, addImp, ht, he, if_true, Bool.false_eq_true, if_false]
    split_ifs
    · exact zero_add _
    · rfl

/-- **C35**, free projection: the complex weight is weight times overlap times phase. -/
theorem blockRow_eproj_free (c : Cfg) (hf : c.free = true) (he : c.evalEnergy = true) (step : Nat)
    (l : List (Nat × Obs)) :
    (blockRow c step l).eproj =
      let ev := l.filter fun x => x.1 % c.freq = 0
      ndiv (ev.map fun x => (x.2.weight : ℂ) * x.2.ot * x.2.phase * x.2.E).sum
        (ev.map fun x => (x.2.weight : ℂ) * x.2.ot * x.2.phase).sum := by
  dsimp only
  show ndiv (Acc.enumer ((l.map (contrib c)).sum)) (Acc.edenom ((l.map (contrib c)).sum)) = _
  rw [sum_field Acc.enumer rfl (fun _ _ => rfl), sum_field Acc.edenom rfl (fun _ _ => rfl),
    List.map_map, List.map_map, ← sum_filter, ← sum_filter]
  congr 3
  · funext x
    simp only [Function.comp, contrib, hf, addFree, he, if_true]
    split_ifs <;> first | rfl | exact zero_add _
  · funext x
    simp only [Function.comp, contrib, hf, addFree, he, if_true]
    split_ifs <;> first | rfl | exact zero_add _

/-- **C35**, thermal importance sampling: every step is an evaluation. -/
theorem blockRow_eproj_thermal (c : Cfg) (hf : c.free = false) (ht : c.thermal = true)
    (ha : c.averageGf = false) (step : Nat) (l : List (Nat × Obs)) :
    (blockRow c step l).eproj =
      ndiv (l.map fun x => (x.2.weight : ℂ) * (x.2.E.re : ℂ)).sum
        (l.map fun x => (x.2.weight : ℂ)).sum := by
  show ndiv (Acc.enumer ((l.map (contrib c)).sum)) (Acc.edenom ((l.map (contrib c)).sum)) = _
  rw [sum_field Acc.enumer rfl (fun _ _ => rfl), sum_field Acc.edenom rfl (fun _ _ => rfl),
    List.map_map, List.map_map]
  congr 3
  · funext x
    simp only [Function.comp, contrib, hf, addImp, ht, ha, if_true, Bool.false_eq_true, if_false]
    exact zero_add _
  · funext x
    simp only [Function.comp, contrib, hf, addImp, ht, ha, if_true, Bool.false_eq_true, if_false]
    exact zero_add _

/-- **Finding (C35)**: with `average_gf` the denominator is never accumulated, so the energy of every
row is a division by zero. -/
theorem blockRow_eproj_average (c : Cfg) (hf : c.free = false) (ht : c.thermal = true)
    (ha : c.averageGf = true) (step : Nat) (l : List (Nat × Obs)) :
    (blockRow c step l).eproj = none := by
  have : Acc.edenom ((l.map (contrib c)).sum) = 0 := by
    rw [sum_field Acc.edenom rfl (fun _ _ => rfl), List.map_map]
    refine List.sum_eq_zero ?_
    intro x hx
    obtain ⟨y, _, rfl⟩ := List.mem_map.mp hx
    simp only [Function.comp, contrib, hf, addImp, ht, ha, if_true, Bool.false_eq_true, if_false]
    rfl
  show ndiv _ (Acc.edenom ((l.map (contrib c)).sum)) = none
  rw [this, ndiv, if_pos rfl]

/-- **Finding (C35)**: a block without an energy evaluation has no energy either. -/
theorem blockRow_no_evaluation (c : Cfg) (hf : c.free = false) (ht : c.thermal = false)
    (he : c.evalEnergy = true) (step : Nat) (l : List (Nat × Obs))
    (h : ∀ x ∈ l, x.1 % c.freq ≠ 0) : (blockRow c step l).eproj = none := by
  rw [blockRow_eproj c hf ht he]
  have : (l.filter fun x => x.1 % c.freq = 0) = [] := by
    rw [List.filter_eq_nil_iff]; intro x hx; simpa using h x hx
  dsimp only
  rw [this]
  simp [ndiv]

/-- The other averages of a row: average weight per step, and hybrid energy and overlap weighted
with the walkers' weights. -/
theorem blockRow_averages (c : Cfg) (hn : 0 < c.nsteps) (hf : c.free = false) (step : Nat)
    (l : List (Nat × Obs)) :
    (blockRow c step l).weight = (l.map fun x => (x.2.weight : ℂ)).sum / c.nsteps ∧
    (blockRow c step l).uweight = (l.map fun x => (x.2.unscaled : ℂ)).sum / c.nsteps ∧
    (blockRow c step l).ehyb =
      ndiv (l.map fun x => (x.2.weight : ℂ) * x.2.hyb).sum (l.map fun x => (x.2.weight : ℂ)).sum ∧
    (blockRow c step l).ovlp =
      ndiv (l.map fun x => (x.2.weight : ℂ) * (‖x.2.ot‖ : ℂ)).sum
        (l.map fun x => (x.2.weight : ℂ)).sum := by
  have hnc : (c.nsteps : ℂ) ≠ 0 := by exact_mod_cast hn.ne'
  have hw : ∀ f : Acc → ℂ, f 0 = 0 → (∀ a b, f (a + b) = f a + f b) → ∀ g : Nat × Obs → ℂ,
      (∀ x, f (contrib c x) = g x) → f ((l.map (contrib c)).sum) = (l.map g).sum := by
    intro f h0 ha g hg
    rw [sum_field f h0 ha, List.map_map]
    congr 2
    funext x
    exact hg x
  have h1 := hw Acc.weight rfl (fun _ _ => rfl) (fun x => (x.2.weight : ℂ)) (fun x => by
    simp only [contrib, hf, addImp, Bool.false_eq_true, if_false]
    split_ifs <;> exact zero_add _)
  have h2 := hw Acc.uweight rfl (fun _ _ => rfl) (fun x => (x.2.unscaled : ℂ)) (fun x => by
    simp only [contrib, hf, addImp, Bool.false_eq_true, if_false]
    split_ifs <;> exact zero_add _)
  have h3 := hw Acc.ehyb rfl (fun _ _ => rfl) (fun x => (x.2.weight : ℂ) * x.2.hyb) (fun x => by
    simp only [contrib, hf, addImp, Bool.false_eq_true, if_false]
    split_ifs <;> exact zero_add _)
  have h4 := hw Acc.ovlp rfl (fun _ _ => rfl) (fun x => (x.2.weight : ℂ) * (‖x.2.ot‖ : ℂ))
    (fun x => by
      simp only [contrib, hf, addImp, Bool.false_eq_true, if_false]
      split_ifs <;> exact zero_add _)
  have hd : ∀ a b : ℂ, ndiv (a / c.nsteps) (b / c.nsteps) = ndiv a b := by
    intro a b
    unfold ndiv
    by_cases hb : b = 0
    · simp [hb]
    · rw [if_neg hb, if_neg (div_ne_zero hb hnc)]
      congr 1
      field_simp
  refine ⟨?_, ?_, ?_, ?_⟩
  · show Acc.weight ((l.map (contrib c)).sum) / c.nsteps = _
    rw [h1]
  · show Acc.uweight ((l.map (contrib c)).sum) / c.nsteps = _
    rw [h2]
  · show ndiv (Acc.ehyb ((l.map (contrib c)).sum) / c.nsteps)
      (Acc.weight ((l.map (contrib c)).sum) / c.nsteps) = _
    rw [h1, h3, hd]
  · show ndiv (Acc.ovlp ((l.map (contrib c)).sum) / c.nsteps)
      (Acc.weight ((l.map (contrib c)).sum) / c.nsteps) = _
    rw [h1, h4, hd]

/-- A field of the summed contributions. -/
theorem sum_contrib (c : Cfg) (l : List (Nat × Obs)) (f : Acc → ℂ) (h0 : f 0 = 0)
    (ha : ∀ a b, f (a + b) = f a + f b) (g : Nat × Obs → ℂ) (hg : ∀ x, f (contrib c x) = g x) :
    f ((l.map (contrib c)).sum) = (l.map g).sum := by
  rw [sum_field f h0 ha, List.map_map]
  congr 2
  funext x
  exact hg x

theorem ndiv_scale (n : Nat) (hn : 0 < n) (a b : ℂ) : ndiv (a / n) (b / n) = ndiv a b := by
  have hnc : (n : ℂ) ≠ 0 := by exact_mod_cast hn.ne'
  by_cases hb : b = 0
  · simp [ndiv, hb]
  · have : b / n ≠ 0 := div_ne_zero hb hnc
    rw [ndiv, ndiv, if_neg hb, if_neg this]
    congr 1
    field_simp

/-- The averages of a row in free projection: every walker counts with weight times overlap times
phase. -/
theorem blockRow_averages_free (c : Cfg) (hn : 0 < c.nsteps) (hf : c.free = true) (step : Nat)
    (l : List (Nat × Obs)) :
    (blockRow c step l).weight =
      (l.map fun x => (x.2.weight : ℂ) * x.2.ot * x.2.phase).sum / c.nsteps ∧
    (blockRow c step l).uweight = (l.map fun x => (x.2.unscaled : ℂ)).sum / c.nsteps ∧
    (blockRow c step l).ehyb =
      ndiv (l.map fun x => (x.2.weight : ℂ) * x.2.ot * x.2.phase * x.2.hyb).sum
        (l.map fun x => (x.2.weight : ℂ) * x.2.ot * x.2.phase).sum := by
  have h1 := sum_contrib c l Acc.weight rfl (fun _ _ => rfl)
    (fun x => (x.2.weight : ℂ) * x.2.ot * x.2.phase) (fun x => by
      simp only [contrib, hf, addFree, if_true]
      split_ifs <;> exact zero_add _)
  have h2 := sum_contrib c l Acc.uweight rfl (fun _ _ => rfl) (fun x => (x.2.unscaled : ℂ))
    (fun x => by
      simp only [contrib, hf, addFree, if_true]
      split_ifs <;> exact zero_add _)
  have h3 := sum_contrib c l Acc.ehyb rfl (fun _ _ => rfl)
    (fun x => (x.2.weight : ℂ) * x.2.ot * x.2.phase * x.2.hyb) (fun x => by
      simp only [contrib, hf, addFree, if_true]
      split_ifs <;> exact zero_add _)
  refine ⟨?_, ?_, ?_⟩
  · show Acc.weight ((l.map (contrib c)).sum) / c.nsteps = _
    rw [h1]
  · show Acc.uweight ((l.map (contrib c)).sum) / c.nsteps = _
    rw [h2]
  · show ndiv (Acc.ehyb ((l.map (contrib c)).sum) / c.nsteps)
      (Acc.weight ((l.map (contrib c)).sum) / c.nsteps) = _
    rw [ndiv_scale _ hn, h1, h3]

/-- The particle number of a thermal row is the weighted average over all walkers and steps, in free
projection with the complex weights. -/
theorem blockRow_nav (c : Cfg) (hn : 0 < c.nsteps) (ht : c.thermal = true)
    (ha : c.averageGf = false) (step : Nat) (l : List (Nat × Obs)) :
    let wt := fun x : Nat × Obs =>
      if c.free then (x.2.weight : ℂ) * x.2.ot * x.2.phase else (x.2.weight : ℂ)
    (blockRow c step l).nav =
      ndiv (l.map fun x => wt x * x.2.nav).sum (l.map wt).sum := by
  intro wt
  have h1 := sum_contrib c l Acc.weight rfl (fun _ _ => rfl) wt (fun x => by
    simp only [contrib, wt]
    cases hfree : c.free
    · simp only [Bool.false_eq_true, if_false, addImp]
      split_ifs <;> exact zero_add _
    · simp only [if_true, addFree]
      split_ifs <;> exact zero_add _)
  have h2 := sum_contrib c l Acc.nav rfl (fun _ _ => rfl) (fun x => wt x * x.2.nav) (fun x => by
    simp only [contrib, wt]
    cases hfree : c.free
    · simp only [Bool.false_eq_true, if_false, addImp, ht, ha, if_true]
      exact zero_add _
    · simp only [if_true, addFree, ht]
      split_ifs <;> exact zero_add _)
  show ndiv (Acc.nav ((l.map (contrib c)).sum) / c.nsteps)
    (Acc.weight ((l.map (contrib c)).sum) / c.nsteps) = _
  rw [ndiv_scale _ hn, h1, h2]

/-! ### Independence of the distribution over ranks -/

/-- The rows of a block do not depend on the order of its observations. -/
theorem blockRow_perm (c : Cfg) (step : Nat) {l l' : List (Nat × Obs)} (h : l.Perm l') :
    blockRow c step l = blockRow c step l' := by
  unfold blockRow
  rw [(h.map (contrib c)).sum_eq]

theorem samples_perm (step : Nat) {os os' : List (List (List Obs))}
    (h : List.Forall₂ (fun o o' => o.flatten.Perm o'.flatten) os os') :
    (samples step os).Perm (samples step os') := by
  induction h generalizing step with
  | nil => exact List.Perm.refl _
  | cons h _ ih => exact List.Perm.append (h.map _) (ih _)

theorem blockRows_perm (c : Cfg) (k : Nat) {bs bs' : List (List (List (List Obs)))}
    (h : List.Forall₂ (List.Forall₂ fun o o' => o.flatten.Perm o'.flatten) bs bs') :
    blockRows c k bs = blockRows c k bs' := by
  induction h generalizing k with
  | nil => rfl
  | cons h _ ih => rw [blockRows, blockRows, ih, blockRow_perm c _ (samples_perm _ h)]

/-- **C35**: two runs with any two numbers of ranks whose walkers, taken over all ranks, agree at
every step up to order write the same rows. -/
theorem rows_independent_of_ranks (c : Cfg) (hn : 0 < c.nsteps) (n n' : Nat)
    (o0 o0' : List (List Obs)) (h0 : o0.length = n) (h0' : o0'.length = n')
    (hp0 : o0.flatten.Perm o0'.flatten) (bs bs' : List (List (List (List Obs))))
    (hp : List.Forall₂ (List.Forall₂ fun o o' => o.flatten.Perm o'.flatten) bs bs')
    (hb : ∀ b ∈ bs, b.length = c.nsteps) (hb' : ∀ b ∈ bs', b.length = c.nsteps)
    (hr : ∀ b ∈ bs, ∀ o ∈ b, o.length = n) (hr' : ∀ b ∈ bs', ∀ o ∈ b, o.length = n') :
    (run c true n o0 bs.flatten).rows = (run c true n' o0' bs'.flatten).rows := by
  have h1 := run_eq c n o0 h0 bs [] hn hb (by simpa using hn) hr (by simp)
  have h2 := run_eq c n' o0' h0' bs' [] hn hb' (by simpa using hn) hr' (by simp)
  rw [List.append_nil] at h1 h2
  rw [blockRows_perm c 0 hp, (List.Perm.sum_eq ((hp0.map fun w => (0, w)).map (contrib c)))] at h1
  exact List.reverse_injective (h1.trans h2.symm)

/-! ## C37: bracketing -/

theorem bracket_sum {α : Type*} (l : List α) (w e : α → ℝ) (m M : ℝ) (hw : ∀ x ∈ l, 0 ≤ w x)
    (hm : ∀ x ∈ l, m ≤ e x) (hM : ∀ x ∈ l, e x ≤ M) :
    m * (l.map w).sum ≤ (l.map fun x => w x * e x).sum ∧
      (l.map fun x => w x * e x).sum ≤ M * (l.map w).sum := by
  induction l with
  | nil => simp
  | cons a l ih =>
    have := ih (fun x hx => hw x (by simp [hx])) (fun x hx => hm x (by simp [hx]))
      (fun x hx => hM x (by simp [hx]))
    simp only [List.map_cons, List.sum_cons]
    have h1 := hw a (by simp)
    have h2 := hm a (by simp)
    have h3 := hM a (by simp)
    constructor <;> nlinarith

theorem ofReal_sum (l : List (Nat × Obs)) (f : Nat × Obs → ℝ) :
    (l.map fun x => (f x : ℂ)).sum = ((l.map f).sum : ℝ) := by
  induction l with
  | nil => simp
  | cons a l ih => simp [ih]

/-- A weighted average with non-negative weights, one of them positive. -/
theorem ndiv_bracket (l : List (Nat × Obs)) (w e : Nat × Obs → ℝ) (m M : ℝ)
    (hw : ∀ x ∈ l, 0 ≤ w x) (hpos : ∃ x ∈ l, 0 < w x) (hm : ∀ x ∈ l, m ≤ e x)
    (hM : ∀ x ∈ l, e x ≤ M) :
    ∃ r : ℝ, ndiv (l.map fun x => ((w x * e x : ℝ) : ℂ)).sum (l.map fun x => (w x : ℂ)).sum =
      some (r : ℂ) ∧ m ≤ r ∧ r ≤ M := by
  have hs : 0 < (l.map w).sum := by
    obtain ⟨x, hx, hxw⟩ := hpos
    have : w x ≤ (l.map w).sum := List.single_le_sum (by
      intro y hy; obtain ⟨z, hz, rfl⟩ := List.mem_map.mp hy; exact hw z hz) _
      (List.mem_map_of_mem hx)
    linarith
  refine ⟨(l.map fun x => w x * e x).sum / (l.map w).sum, ?_, ?_, ?_⟩
  · rw [ofReal_sum l w, ofReal_sum l (fun x => w x * e x), ndiv,
      if_neg (by exact_mod_cast hs.ne')]
    push_cast
    rfl
  · rw [le_div_iff₀ hs]; exact (bracket_sum l w e m M hw hm hM).1
  · rw [div_le_iff₀ hs]; exact (bracket_sum l w e m M hw hm hM).2

/-- **C37**, zero temperature: with non-negative weights (times the overlap ratio of the local
energy) and a positive one among the evaluated walkers, the row's energy is a real number between
the bounds of the local energies that entered. -/
theorem blockRow_bracket (c : Cfg) (hf : c.free = false) (ht : c.thermal = false)
    (he : c.evalEnergy = true) (step : Nat) (l : List (Nat × Obs)) (orat : Nat × Obs → ℝ) (m M : ℝ)
    (hor : ∀ x ∈ l, x.2.oratio = orat x)
    (hw : ∀ x ∈ l, x.1 % c.freq = 0 → 0 ≤ x.2.weight * orat x)
    (hpos : ∃ x ∈ l, x.1 % c.freq = 0 ∧ 0 < x.2.weight * orat x)
    (hm : ∀ x ∈ l, x.1 % c.freq = 0 → m ≤ x.2.E.re)
    (hM : ∀ x ∈ l, x.1 % c.freq = 0 → x.2.E.re ≤ M) :
    ∃ r : ℝ, (blockRow c step l).eproj = some (r : ℂ) ∧ m ≤ r ∧ r ≤ M := by
  rw [blockRow_eproj c hf ht he]
  dsimp only
  have hmem : ∀ x, x ∈ l.filter (fun x => x.1 % c.freq = 0) ↔ x ∈ l ∧ x.1 % c.freq = 0 := by
    intro x; simp
  have := ndiv_bracket (l.filter fun x => x.1 % c.freq = 0) (fun x => x.2.weight * orat x)
    (fun x => x.2.E.re) m M (fun x hx => hw x ((hmem x).mp hx).1 ((hmem x).mp hx).2)
    (by obtain ⟨x, h1, h2, h3⟩ := hpos; exact ⟨x, (hmem x).mpr ⟨h1, h2⟩, h3⟩)
    (fun x hx => hm x ((hmem x).mp hx).1 ((hmem x).mp hx).2)
    (fun x hx => hM x ((hmem x).mp hx).1 ((hmem x).mp hx).2)
  obtain ⟨r, h1, h2⟩ := this
  refine ⟨r, ?_, h2⟩
  rw [← h1]
  congr 2
  · refine List.map_congr_left fun x hx => ?_
    rw [hor x ((hmem x).mp hx).1]; push_cast; ring
  · refine List.map_congr_left fun x hx => ?_
    rw [hor x ((hmem x).mp hx).1]; push_cast; ring

/-- **C37**, thermal. -/
theorem blockRow_bracket_thermal (c : Cfg) (hf : c.free = false) (ht : c.thermal = true)
    (ha : c.averageGf = false) (step : Nat) (l : List (Nat × Obs)) (m M : ℝ)
    (hw : ∀ x ∈ l, 0 ≤ x.2.weight) (hpos : ∃ x ∈ l, 0 < x.2.weight)
    (hm : ∀ x ∈ l, m ≤ x.2.E.re) (hM : ∀ x ∈ l, x.2.E.re ≤ M) :
    ∃ r : ℝ, (blockRow c step l).eproj = some (r : ℂ) ∧ m ≤ r ∧ r ≤ M := by
  rw [blockRow_eproj_thermal c hf ht ha]
  obtain ⟨r, h1, h2⟩ := ndiv_bracket l (fun x => x.2.weight) (fun x => x.2.E.re) m M hw hpos hm hM
  refine ⟨r, ?_, h2⟩
  rw [← h1]
  congr 3
  funext x
  push_cast
  ring

/-! ## Concrete cases -/

/-- A walker with given weight and energy. -/
noncomputable def mk (w e : ℝ) : Obs := ⟨w, w, 1, 1, 1, e, e, e, 0, 0, []⟩

/-- Two ranks, one step per block: the row of the block has energy `(1·(-2) + 3·(-4))/4`. -/
example : (blockRow ⟨1, 1, false, false, false, true⟩ 1
    (samples 1 [[[mk 1 (-2)], [mk 3 (-4)]]])).eproj = some (((-7 / 2 : ℝ)) : ℂ) := by
  rw [blockRow_eproj _ rfl rfl rfl]
  simp only [samples, mk, List.flatten_cons, List.flatten_nil, List.append_nil, List.cons_append,
    List.nil_append, List.map_cons, List.map_nil, List.filter_cons, Nat.mod_one, decide_true,
    if_true, List.filter_nil, List.sum_cons, List.sum_nil, Complex.ofReal_re]
  rw [ndiv, if_neg (by norm_num)]
  congr 1
  push_cast
  norm_num

/-- **C36 fails** without `verbose`: the first row depends on the walkers before the first step. -/
theorem run_quiet_depends :
    ∃ (c : Cfg) (b : List (List (List Obs))) (o0 o0' : List (List Obs)),
      ((run c false 1 o0 b).rows.map fun r => r.eproj) ≠
        ((run c false 1 o0' b).rows.map fun r => r.eproj) := by
  refine ⟨⟨1, 1, false, false, false, true⟩, [[[mk 1 0]]], [[mk 1 0]], [[mk 1 2]], ?_⟩
  have h : ∀ e : ℝ, (run ⟨1, 1, false, false, false, true⟩ false 1 [[mk 1 e]] [[[mk 1 0]]]).rows.map
      (fun r => r.eproj) = [some ((e / 2 : ℝ) : ℂ)] := by
    intro e
    rw [run_quiet_leaks ⟨1, 1, false, false, false, true⟩ 1 [[mk 1 e]] rfl [[[mk 1 0]]] one_pos rfl
      (by simp), List.map_cons, List.map_nil, blockRow_eproj _ rfl rfl rfl]
    simp only [samples, mk, List.flatten_cons, List.flatten_nil, List.append_nil, List.cons_append,
      List.nil_append, List.map_cons, List.map_nil, List.filter_cons, Nat.mod_one, decide_true,
      if_true, List.filter_nil, List.sum_cons, List.sum_nil, Complex.ofReal_re]
    rw [ndiv, if_neg (by norm_num)]
    congr 2
    push_cast
    ring
  rw [h, h]
  simp

end Verif.Mixed
