import Verif.Mpi.Exchange
import Mathlib.Algebra.BigOperators.Group.Finset.Piecewise
import Mathlib.Algebra.BigOperators.Group.Finset.Sigma
import Mathlib.Algebra.Order.Group.Multiset

/-! The walkers received in an exchange are, as a multiset, the walkers sent. -/

namespace Verif.Mpi

open Finset

/-- Splitting a list of sends or receives by peer. -/
theorem sum_onChan {M : Type} [AddCommMonoid M] (n : Nat) (t : Nat → Nat)
    (l : List (Nat × Nat × Nat)) (h : ∀ x ∈ l, x.2.1 < n ∧ x.2.2 = t x.2.1)
    (g : Nat × Nat × Nat → M) :
    (l.map g).sum = ∑ p ∈ range n, ((onChan l p (t p)).map g).sum := by
  induction l with
  | nil => simp [onChan]
  | cons a l ih =>
    obtain ⟨h1, h2⟩ := h a (by simp)
    rw [List.map_cons, List.sum_cons, ih (fun x hx => h x (by simp [hx]))]
    have key : ∀ p ∈ range n, ((onChan (a :: l) p (t p)).map g).sum =
        (if p = a.2.1 then g a else 0) + ((onChan l p (t p)).map g).sum := by
      intro p _
      rw [onChan_cons]
      by_cases hp : p = a.2.1
      · subst hp
        rw [if_pos ⟨rfl, h2⟩, if_pos rfl, List.map_cons, List.sum_cons]
      · rw [if_neg (fun hh => hp hh.1.symm), if_neg hp, zero_add]
    rw [Finset.sum_congr rfl key, Finset.sum_add_distrib, Finset.sum_ite_eq']
    simp [h1]

/-- If the tag is a function of source and destination, the received walkers are, as a multiset,
the sent walkers. -/
theorem received_eq_sent {V : Type} (n : Nat) (T : Nat → Nat → Nat)
    (sends recvs : Nat → List (Nat × Nat × Nat))
    (hs : ∀ r, ∀ x ∈ sends r, x.2.1 < n ∧ x.2.2 = T r x.2.1)
    (hr : ∀ r, ∀ x ∈ recvs r, x.2.1 < n ∧ x.2.2 = T x.2.1 r)
    (mem mem' : Nat → Nat → V)
    (hchan : ∀ src dst tag, (onChan (recvs dst) src tag).map (fun x => mem' dst x.1) =
        (onChan (sends src) dst tag).map (fun x => mem src x.1))
    {M : Type} [AddCommMonoid M] (g : V → M) :
    ∑ r ∈ range n, ((recvs r).map (fun x => g (mem' r x.1))).sum =
      ∑ r ∈ range n, ((sends r).map (fun x => g (mem r x.1))).sum := by
  have e1 : ∀ r ∈ range n, ((recvs r).map (fun x => g (mem' r x.1))).sum =
      ∑ p ∈ range n, ((onChan (sends p) r (T p r)).map (fun x => g (mem p x.1))).sum := by
    intro r _
    rw [sum_onChan n (fun p => T p r) (recvs r) (hr r)]
    apply Finset.sum_congr rfl
    intro p _
    have h1 : (onChan (recvs r) p (T p r)).map (fun x => g (mem' r x.1)) =
        ((onChan (recvs r) p (T p r)).map (fun x => mem' r x.1)).map g := by
      rw [List.map_map]; rfl
    rw [h1, hchan, List.map_map]; rfl
  have e2 : ∀ r ∈ range n, ((sends r).map (fun x => g (mem r x.1))).sum =
      ∑ p ∈ range n, ((onChan (sends r) p (T r p)).map (fun x => g (mem r x.1))).sum := by
    intro r _
    exact sum_onChan n (fun p => T r p) (sends r) (hs r) _
  rw [Finset.sum_congr rfl e1, Finset.sum_congr rfl e2, Finset.sum_comm]

end Verif.Mpi
