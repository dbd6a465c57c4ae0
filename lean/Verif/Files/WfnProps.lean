import Verif.Files.Wfn
import Mathlib.Tactic.Linarith
import Mathlib.Tactic.NormNum
import Mathlib.Tactic.IntervalCases

/-!
# Round trips of wavefunction files (C47, C48)
-/

namespace Verif.Files

theorem Arr.Same.refl (a : Arr) : a.Same a := ⟨rfl, rfl, fun _ _ _ _ => rfl⟩

theorem Arr.Same.trans {a b c : Arr} (h : a.Same b) (h' : b.Same c) : a.Same c :=
  ⟨h.1.trans h'.1, h.2.1.trans h'.2.1, fun i hi j hj =>
    (h.2.2 i hi j hj).trans (h'.2.2 i (by rw [← h.1]; exact hi) j (by rw [← h.2.1]; exact hj))⟩

theorem Arr.Same.ct {a b : Arr} (h : a.Same b) : a.ct.Same b.ct :=
  ⟨h.2.1, h.1, fun i hi j hj => by simp only [Arr.ct]; rw [h.2.2 j hj i hi]⟩

theorem Arr.ct_ct (a : Arr) : a.ct.ct = a := by simp [Arr.ct]

/-! ### Sparse matrices -/

theorem sum_entries (g : Nat → ℂ) (j : Nat) (p : Nat → Bool) (hp : ∀ k, p k = false → g k = 0) : ∀ l : List Nat, l.Nodup →
    ((((l.filter p).map fun k => (k, g k)).filter fun e => e.1 == j).map Prod.snd).sum = if j ∈ l then g j else 0
  | [], _ => by simp
  | a :: l, h => by
    rw [List.nodup_cons] at h
    have ih := sum_entries g j p hp l h.2
    by_cases ha : p a = true
    · rw [List.filter_cons_of_pos ha, List.map_cons]
      by_cases hj : a = j
      · subst hj
        rw [List.filter_cons_of_pos (by simp), List.map_cons, List.sum_cons, ih, if_neg h.1]
        simp
      · rw [List.filter_cons_of_neg (by simpa using hj), ih]
        simp [Ne.symm hj]
    · have ha' : p a = false := by simpa using ha
      rw [List.filter_cons_of_neg ha, ih]
      by_cases hj : j = a
      · subst hj
        rw [if_neg h.1]
        simp [hp j ha']
      · simp [hj]

theorem zip_fst_snd {α β : Type*} : ∀ l : List (α × β), (l.map Prod.fst).zip (l.map Prod.snd) = l
  | [] => rfl
  | a :: l => by simp [zip_fst_snd l]

theorem entries_split (a : Arr) (i : Nat) (hi : i < a.r) :
    ∃ rest, entries a a.r = entries a i ++ rowEntries a i ++ rest := by
  obtain ⟨d, hd⟩ : ∃ d, a.r = (i + 1) + d := ⟨a.r - (i + 1), by omega⟩
  refine ⟨((List.range d).map fun x => i + 1 + x).flatMap (rowEntries a), ?_⟩
  rw [entries, hd, List.range_add, List.flatMap_append, List.range_succ, List.flatMap_append]
  simp [entries]

theorem indptr_getD (a : Arr) (k : Nat) (hk : k ≤ a.r) : (indptr a).getD k 0 = (entries a k).length := by
  rw [indptr, List.getD_eq_getElem?_getD, List.getElem?_map, List.getElem?_range (by omega)]
  rfl

/-- Expanding the compressed-row form gives the matrix. -/
theorem toarray_writeSingle (a : Arr) :
    (toarray a.r a.c ((entries a a.r).map Prod.snd) ((entries a a.r).map Prod.fst) (indptr a)).Same a := by
  refine ⟨rfl, rfl, fun i hi j hj => ?_⟩
  replace hi : i < a.r := hi
  replace hj : j < a.c := hj
  simp only [toarray]
  rw [zip_fst_snd, indptr_getD a i (by omega), indptr_getD a (i + 1) (by omega)]
  obtain ⟨rest, hr⟩ := entries_split a i hi
  have h1 : entries a (i + 1) = entries a i ++ rowEntries a i := by
    simp [entries, List.range_succ]
  rw [h1, hr, List.append_assoc, List.drop_left, List.length_append, Nat.add_sub_cancel_left, List.take_left]
  classical
  rw [rowEntries, sum_entries (a.f i) j _ (fun k hk => by simpa using hk) _ List.nodup_range, if_pos (by simpa using hj)]

/-- What comes back after storing `a`. -/
noncomputable def reread (a : Arr) : Arr :=
  (toarray a.r a.c ((entries a a.r).map Prod.snd) ((entries a a.r).map Prod.fst) (indptr a)).ct

theorem reread_same (a : Arr) : (reread a.ct).Same a := by
  have := (toarray_writeSingle a.ct).ct
  rw [Arr.ct_ct] at this
  exact this

theorem orbs_writeSingle (a : Arr) (h : 0 < a.r) : orbsFromDset (writeSingle a) = some (reread a) := by
  obtain ⟨x, l, hl⟩ : ∃ x l, indptr a = x :: l := by
    cases hx : indptr a with
    | nil => simp [indptr] at hx
    | cons x l => exact ⟨x, l, rfl⟩
  have hlen : (indptr a).length = a.r + 1 := by simp [indptr]
  have hne : l ≠ [] := by
    rintro rfl
    rw [hl] at hlen
    simp at hlen
    omega
  unfold orbsFromDset
  simp only [writeSingle, hl, List.tail_cons]
  rw [List.getLast?_eq_getLast_of_ne_nil hne]
  simp only [reread, hl]
  rw [List.dropLast_cons_of_ne_nil hne, List.cons_append, List.dropLast_append_getLast hne]

theorem orbs_empty (a : Arr) (h : a.r = 0) : orbsFromDset (writeSingle a) = none := by
  unfold orbsFromDset
  simp [writeSingle, indptr, h]

/-! ### Putting columns together -/

theorem setCols_ok (dst src : Arr) (lo w : Nat) (hr : src.r = dst.r) (hc : src.c = w) :
    ∃ a, dst.setCols lo w src = some a ∧ a.r = dst.r ∧ a.c = dst.c ∧
      ∀ i < dst.r, ∀ j, a.f i j = if lo ≤ j ∧ j < lo + w then src.f i (j - lo) else dst.f i j := by
  unfold Arr.setCols
  rw [if_pos ⟨Or.inl hr, Or.inl hc⟩]
  refine ⟨_, rfl, rfl, rfl, fun i hi j => ?_⟩
  simp only
  split_ifs with h1 h2 h3 h3 <;> try rfl
  · congr 1 <;> omega
  · congr 1; omega
  · congr 1; omega

theorem assemble_ok (nmo na nb : Nat) (pa pb : Arr) (h1 : pa.r = nmo) (h2 : pa.c = na) (h3 : pb.r = nmo)
    (h4 : pb.c = nb) :
    ∃ a, (((Arr.zeros nmo (na + nb)).setCols 0 na pa).bind fun w => w.setCols na nb pb) = some a ∧ a.r = nmo ∧
      a.c = na + nb ∧ ∀ i < nmo, (∀ j < na, a.f i j = pa.f i j) ∧ ∀ j < nb, a.f i (na + j) = pb.f i j := by
  obtain ⟨w, hw, r1, c1, f1⟩ := setCols_ok (Arr.zeros nmo (na + nb)) pa 0 na h1 h2
  obtain ⟨a, ha, r2, c2, f2⟩ := setCols_ok w pb na nb (h3.trans r1.symm) h4
  refine ⟨a, by rw [hw]; exact ha, r2.trans r1, c2.trans c1, fun i hi => ⟨fun j hj => ?_, fun j hj => ?_⟩⟩
  · rw [f2 i (by rw [r1]; exact hi), if_neg (by omega), f1 i hi, if_pos (by omega)]
    simp
  · rw [f2 i (by rw [r1]; exact hi), if_pos (by omega)]
    simp

/-- Two blocks of columns determine the array. -/
theorem same_of_blocks (a w : Arr) (nmo na nb : Nat) (hr : a.r = nmo) (hc : a.c = na + nb) (hr' : w.r = nmo)
    (hc' : w.c = na + nb) (h : ∀ i < nmo, (∀ j < na, a.f i j = w.f i j) ∧ ∀ j < nb, a.f i (na + j) = w.f i (na + j)) :
    a.Same w := by
  refine ⟨hr.trans hr'.symm, hc.trans hc'.symm, fun i hi j hj => ?_⟩
  rw [hr] at hi
  rw [hc] at hj
  by_cases hja : j < na
  · exact (h i hi).1 j hja
  · have := (h i hi).2 (j - na) (by omega)
    rwa [show na + (j - na) = j by omega] at this

theorem mapM_some {α β : Type*} (f : α → Option β) (R : α → β → Prop) : ∀ l : List α,
    (∀ x ∈ l, ∃ y, f x = some y ∧ R x y) → ∃ ys, l.mapM f = some ys ∧ List.Forall₂ R l ys
  | [], _ => ⟨[], rfl, .nil⟩
  | a :: l, h => by
    obtain ⟨y, hy, hR⟩ := h a (by simp)
    obtain ⟨ys, hys, hRs⟩ := mapM_some f R l fun x hx => h x (List.mem_cons_of_mem _ hx)
    exact ⟨y :: ys, by simp [List.mapM_cons, hy, hys], .cons hR hRs⟩

theorem mapM_none {α β : Type*} (f : α → Option β) : ∀ l : List α, (∃ x ∈ l, f x = none) → l.mapM f = none
  | [], h => by simp at h
  | a :: l, h => by
    rw [List.mapM_cons]
    cases ha : f a with
    | none => rfl
    | some y =>
      obtain ⟨x, hx, hf⟩ := h
      rw [List.mem_cons] at hx
      rcases hx with rfl | hx
      · rw [ha] at hf; cases hf
      · simp [mapM_none f l ⟨x, hx, hf⟩]

/-! ### Lookup of the determinants -/

theorem lookup_rhf (na : Nat) : ∀ (ws : List Arr) (idet i : Nat),
    (writeDets false na idet ws).lookup (idet + i) = ws[i]?.map fun w => writeSingle (w.left na).ct
  | [], idet, i => by simp [writeDets]
  | w :: ws, idet, i => by
    simp only [writeDets, Bool.false_eq_true, if_false, List.cons_append, List.nil_append]
    cases i with
    | zero => simp
    | succ i =>
      rw [List.lookup_cons]
      have h : ((idet + (i + 1)) == idet) = false := by simp
      rw [h, show idet + (i + 1) = (idet + 1) + i by omega]
      simp only [lookup_rhf na ws (idet + 1) i]
      simp

theorem lookup_uhf_a (na : Nat) : ∀ (ws : List Arr) (idet i : Nat),
    (writeDets true na idet ws).lookup (2 * (idet + i)) = ws[i]?.map fun w => writeSingle (w.left na).ct
  | [], idet, i => by simp [writeDets]
  | w :: ws, idet, i => by
    simp only [writeDets, if_true, List.cons_append, List.nil_append]
    cases i with
    | zero => simp
    | succ i =>
      rw [List.lookup_cons, List.lookup_cons]
      have h : ((2 * (idet + (i + 1))) == 2 * idet) = false := by simp
      have h' : ((2 * (idet + (i + 1))) == 2 * idet + 1) = false := by simp; omega
      rw [h, h', show idet + (i + 1) = (idet + 1) + i by omega]
      simp only [lookup_uhf_a na ws (idet + 1) i]
      simp

theorem lookup_uhf_b (na : Nat) : ∀ (ws : List Arr) (idet i : Nat),
    (writeDets true na idet ws).lookup (2 * (idet + i) + 1) = ws[i]?.map fun w => writeSingle (w.right na).ct
  | [], idet, i => by simp [writeDets]
  | w :: ws, idet, i => by
    simp only [writeDets, if_true, List.cons_append, List.nil_append]
    cases i with
    | zero =>
      rw [List.lookup_cons, List.lookup_cons]
      have h : ((2 * (idet + 0) + 1) == 2 * idet) = false := by simp
      rw [h]
      simp
    | succ i =>
      rw [List.lookup_cons, List.lookup_cons]
      have h : ((2 * (idet + (i + 1)) + 1) == 2 * idet) = false := by simp; omega
      have h' : ((2 * (idet + (i + 1)) + 1) == 2 * idet + 1) = false := by simp
      rw [h, h', show idet + (i + 1) = (idet + 1) + i by omega]
      simp only [lookup_uhf_b na ws (idet + 1) i]
      simp

theorem mapM_range {β : Type*} (f : Nat → Option β) (R : Nat → β → Prop) (n : Nat)
    (h : ∀ i < n, ∃ y, f i = some y ∧ R i y) :
    ∃ ys, (List.range n).mapM f = some ys ∧ ys.length = n ∧ ∀ i y, ys[i]? = some y → R i y := by
  obtain ⟨ys, h1, h2⟩ := mapM_some f R (List.range n) fun i hi => h i (List.mem_range.1 hi)
  refine ⟨ys, h1, by rw [← h2.length_eq, List.length_range], fun i y hy => ?_⟩
  rw [List.getElem?_eq_some_iff] at hy
  obtain ⟨hi, rfl⟩ := hy
  have := h2.get (i := i) (by rw [h2.length_eq]; exact hi) hi
  simpa using this

/-! ## Reading a non-orthogonal expansion -/

/-- All determinants have the stated shape, and there is one for each coefficient. -/
structure Shaped (coeffs : List ℂ) (wfn : List Arr) (nelec : Nat × Nat) (norb : Nat) : Prop where
  ne : wfn ≠ []
  len : coeffs.length = wfn.length
  rows : ∀ w ∈ wfn, w.r = norb
  cols : ∀ w ∈ wfn, w.c = nelec.1 + nelec.2

/-- The alpha orbitals of `v` are those of the matrix `a`, the beta orbitals those of `b`. -/
def Blocks (norb na nb : Nat) (v a b : Arr) : Prop :=
  v.r = norb ∧ v.c = na + nb ∧ ∀ i < norb, (∀ j < na, v.f i j = a.f i j) ∧ ∀ j < nb, v.f i (na + j) = b.f i j

/-- What the writer stores for `init = None`. -/
theorem writeNomsd_some (coeffs : List ℂ) (w : Arr) (wfn : List Arr) (wt : WType) (nelec : Nat × Nat) (norb : Nat) :
    writeNomsd coeffs (w :: wfn) wt nelec norb none = some
      { nmo := norb, na := nelec.1, nb := nelec.2, wtype := if wt == .uhf then 2 else 1, nci := coeffs.length,
        coeffs := coeffs, psi0a := (cut w).left nelec.1,
        psi0b := if wt == .uhf then some ((cut w).right nelec.1) else none,
        psiT := writeDets (wt == .uhf) nelec.1 0 ((w :: wfn).map cut) } := rfl

/-- **C47** (restricted): alpha orbitals come back up to the threshold; the beta orbitals are the first alpha orbitals. -/
theorem nomsd_rhf (coeffs : List ℂ) (wfn : List Arr) (nelec : Nat × Nat) (norb : Nat)
    (hs : Shaped coeffs wfn nelec norb) (ha : 0 < nelec.1) (hb : nelec.2 ≤ nelec.1) (ne : Option (Nat × Nat))
    (hne : electronsOk nelec.1 nelec.2 ne = true) :
    ∃ g ws psi0, writeNomsd coeffs wfn .rhf nelec norb none = some g ∧ readNomsd g ne = some (coeffs, ws, psi0) ∧
      ws.length = wfn.length ∧
      (∀ (i : Nat) (w v : Arr), wfn[i]? = some w → ws[i]? = some v → Blocks norb nelec.1 nelec.2 v (cut w) (cut w)) ∧
      ∀ w, wfn.head? = some w → Blocks norb nelec.1 nelec.2 psi0 (cut w) (cut w) := by
  obtain ⟨hnil, hlen, hr, hc⟩ := hs
  obtain ⟨w, wfn', rfl⟩ : ∃ w l, wfn = w :: l := by
    cases wfn with
    | nil => exact absurd rfl hnil
    | cons w l => exact ⟨w, l, rfl⟩
  obtain ⟨na, nb⟩ := nelec
  simp only at ha hb hc hne
  have hw := writeNomsd_some coeffs w wfn' .rhf (na, nb) norb
  set g : Nomsd := _ with hg
  change _ = some g at hw
  have hrw : (cut w).r = norb := hr w (by simp)
  have hcw : (cut w).c = na + nb := hc w (by simp)
  -- reference
  obtain ⟨psi0, p1, p2, p3, p4⟩ := assemble_ok norb na nb ((cut w).left na) (((cut w).left na).left nb) hrw
    (by simp only [Arr.left]; omega) hrw (by simp only [Arr.left]; omega)
  have hpsi0 : readPsi0 g false = some psi0 := p1
  -- determinants
  have hdet : ∀ i < coeffs.length, ∃ v, readDet g false i = some v ∧
      ∀ x, (w :: wfn')[i]? = some x → Blocks norb na nb v (cut x) (cut x) := by
    intro i hi
    rw [hlen] at hi
    obtain ⟨x, hx⟩ : ∃ x, (w :: wfn')[i]? = some x := ⟨_, List.getElem?_eq_getElem hi⟩
    have hmem : x ∈ w :: wfn' := List.mem_of_getElem? hx
    have hrx : (cut x).r = norb := hr x hmem
    have hcx : (cut x).c = na + nb := hc x hmem
    have hl := lookup_rhf na ((w :: wfn').map cut) 0 i
    rw [Nat.zero_add, List.getElem?_map, hx] at hl
    have hlook : lookupPsi g i = some (reread ((cut x).left na).ct) := by
      have h1 : g.psiT.lookup i = some (writeSingle ((cut x).left na).ct) := hl
      unfold lookupPsi
      rw [h1, Option.bind_some]
      apply orbs_writeSingle
      simp only [Arr.ct, Arr.left]
      omega
    have hsame := reread_same ((cut x).left na)
    have hcc : (reread ((cut x).left na).ct).c = na := by
      rw [hsame.2.1]; simp only [Arr.left]; omega
    have hrr : (reread ((cut x).left na).ct).r = norb := by rw [hsame.1]; exact hrx
    obtain ⟨v, v1, v2, v3, v4⟩ := assemble_ok norb na nb (reread ((cut x).left na).ct)
      ((reread ((cut x).left na).ct).left nb) hrr hcc hrr
      (show min nb (reread ((cut x).left na).ct).c = nb by rw [hcc]; omega)
    refine ⟨v, ?_, ?_⟩
    · unfold readDet
      rw [hlook]
      exact v1
    · intro y hy
      rw [hx] at hy
      cases hy
      refine ⟨v2, v3, fun a hal => ⟨fun j hj => ?_, fun j hj => ?_⟩⟩
      · rw [(v4 a hal).1 j hj]
        exact hsame.2.2 a (by rw [hrr]; exact hal) j (by rw [hcc]; exact hj)
      · rw [(v4 a hal).2 j hj]
        exact hsame.2.2 a (by rw [hrr]; exact hal) j (by rw [hcc]; omega)
  obtain ⟨ws, m1, m2, m3⟩ := mapM_range (readDet g false) (fun i v => ∀ x, (w :: wfn')[i]? = some x →
    Blocks norb na nb v (cut x) (cut x)) coeffs.length hdet
  refine ⟨g, ws, psi0, hw, ?_, by rw [m2, hlen], fun i x v hx hv => m3 i v hv x hx, ?_⟩
  · unfold readNomsd
    rw [if_pos (show electronsOk g.na g.nb ne = true from hne)]
    simp only
    rw [if_pos (show g.coeffs.length = g.nci from rfl)]
    have hu : (g.wtype == 2) = false := rfl
    rw [hu, hpsi0, Option.bind_some, show g.nci = coeffs.length from rfl, m1]
    rfl
  · intro x hx
    simp only [List.head?_cons, Option.some.injEq] at hx
    subst hx
    exact ⟨p2, p3, fun i hi => ⟨fun j hj => (p4 i hi).1 j hj, fun j hj => (p4 i hi).2 j hj⟩⟩

/-- The stored matrix number `t` of an unrestricted expansion: alpha and beta orbitals alternate. -/
def stored (na : Nat) (wfn : List Arr) (t : Nat) : Option Arr :=
  wfn[t / 2]?.map fun w => if t % 2 = 0 then w.left na else w.right na

theorem lookup_stored (na : Nat) (ws : List Arr) (t : Nat) :
    (writeDets true na 0 ws).lookup t = (stored na ws t).map fun a => writeSingle a.ct := by
  unfold stored
  rcases Nat.mod_two_eq_zero_or_one t with h | h
  · have h1 := lookup_uhf_a na ws 0 (t / 2)
    rw [show 2 * (0 + t / 2) = t by omega] at h1
    rw [h1, Option.map_map]
    simp [h, Function.comp_def]
  · have h1 := lookup_uhf_b na ws 0 (t / 2)
    rw [show 2 * (0 + t / 2) + 1 = t by omega] at h1
    rw [h1, Option.map_map]
    simp [h, Function.comp_def]

/-- **C47** (unrestricted), what is read: determinant `i` gets the stored matrix number `i` as its alpha orbitals and its
own beta orbitals. -/
theorem nomsd_uhf (coeffs : List ℂ) (wfn : List Arr) (nelec : Nat × Nat) (norb : Nat)
    (hs : Shaped coeffs wfn nelec norb) (ha : 0 < nelec.1) (hb : 0 < nelec.2)
    (hone : wfn.length = 1 ∨ nelec.1 = nelec.2) (ne : Option (Nat × Nat))
    (hne : electronsOk nelec.1 nelec.2 ne = true) :
    ∃ g ws psi0, writeNomsd coeffs wfn .uhf nelec norb none = some g ∧ readNomsd g ne = some (coeffs, ws, psi0) ∧
      ws.length = wfn.length ∧
      (∀ (i : Nat) (w v : Arr), wfn[i]? = some w → ws[i]? = some v → ∃ a, stored nelec.1 (wfn.map cut) i = some a ∧
        Blocks norb nelec.1 nelec.2 v a ((cut w).right nelec.1)) ∧
      ∀ w, wfn.head? = some w → psi0.Same (cut w) := by
  obtain ⟨hnil, hlen, hr, hc⟩ := hs
  obtain ⟨w, wfn', rfl⟩ : ∃ w l, wfn = w :: l := by
    cases wfn with
    | nil => exact absurd rfl hnil
    | cons w l => exact ⟨w, l, rfl⟩
  obtain ⟨na, nb⟩ := nelec
  simp only at ha hb hc hne hone
  have hw := writeNomsd_some coeffs w wfn' .uhf (na, nb) norb
  set g : Nomsd := _ with hg
  change _ = some g at hw
  have hrw : (cut w).r = norb := hr w (by simp)
  have hcw : (cut w).c = na + nb := hc w (by simp)
  obtain ⟨psi0, p1, p2, p3, p4⟩ := assemble_ok norb na nb ((cut w).left na) ((cut w).right na) hrw
    (by simp only [Arr.left]; omega) hrw (by simp only [Arr.right]; omega)
  have hpsi0 : readPsi0 g true = some psi0 := p1
  have hlook : ∀ t a, stored na ((w :: wfn').map cut) t = some a → 0 < a.c → lookupPsi g t = some (reread a.ct) := by
    intro t a hst hpos
    have h1 : g.psiT.lookup t = some (writeSingle a.ct) := by
      have := lookup_stored na ((w :: wfn').map cut) t
      rw [hst] at this
      exact this
    unfold lookupPsi
    rw [h1, Option.bind_some]
    exact orbs_writeSingle _ hpos
  have hdet : ∀ i < coeffs.length, ∃ v, readDet g true i = some v ∧
      ∀ x, (w :: wfn')[i]? = some x → ∃ a, stored na ((w :: wfn').map cut) i = some a ∧
        Blocks norb na nb v a ((cut x).right na) := by
    intro i hi
    rw [hlen] at hi
    -- the matrix found for alpha
    have hi2 : i / 2 < (w :: wfn').length := by omega
    obtain ⟨y, hy⟩ : ∃ y, (w :: wfn')[i / 2]? = some y := ⟨_, List.getElem?_eq_getElem hi2⟩
    have hmy : y ∈ w :: wfn' := List.mem_of_getElem? hy
    have hry : (cut y).r = norb := hr y hmy
    have hcy : (cut y).c = na + nb := hc y hmy
    obtain ⟨a, hst, hra, hca⟩ : ∃ a, stored na ((w :: wfn').map cut) i = some a ∧ a.r = norb ∧ a.c = na := by
      unfold stored
      rw [List.getElem?_map, hy]
      refine ⟨_, rfl, ?_, ?_⟩
      · split_ifs <;> exact hry
      · split_ifs with h
        · simp only [Arr.left]; omega
        · simp only [Arr.right]
          rcases hone with h1 | h1
          · omega
          · omega
    -- the matrix found for beta
    obtain ⟨x, hx⟩ : ∃ x, (w :: wfn')[i]? = some x := ⟨_, List.getElem?_eq_getElem hi⟩
    have hmx : x ∈ w :: wfn' := List.mem_of_getElem? hx
    have hrx : (cut x).r = norb := hr x hmx
    have hcx : (cut x).c = na + nb := hc x hmx
    have hstb : stored na ((w :: wfn').map cut) (2 * i + 1) = some ((cut x).right na) := by
      unfold stored
      rw [show (2 * i + 1) / 2 = i by omega, List.getElem?_map, hx]
      simp
    have hcb : ((cut x).right na).c = nb := by simp only [Arr.right]; omega
    have sa := reread_same a
    have sb := reread_same ((cut x).right na)
    obtain ⟨v, v1, v2, v3, v4⟩ := assemble_ok norb na nb (reread a.ct) (reread ((cut x).right na).ct)
      (sa.1.trans hra) (sa.2.1.trans hca) (sb.1.trans hrx) (sb.2.1.trans hcb)
    refine ⟨v, ?_, ?_⟩
    · unfold readDet
      rw [hlook i a hst (by omega), hlook _ _ hstb (by omega)]
      exact v1
    · intro x' hx'
      rw [hx] at hx'
      cases hx'
      refine ⟨a, hst, v2, v3, fun k hk => ⟨fun j hj => ?_, fun j hj => ?_⟩⟩
      · rw [(v4 k hk).1 j hj]
        exact sa.2.2 k (by rw [sa.1, hra]; exact hk) j (by rw [sa.2.1, hca]; exact hj)
      · rw [(v4 k hk).2 j hj]
        exact sb.2.2 k (by rw [sb.1]; exact hk.trans_eq hrx.symm) j (by rw [sb.2.1, hcb]; exact hj)
  obtain ⟨ws, m1, m2, m3⟩ := mapM_range (readDet g true) (fun i v => ∀ x, (w :: wfn')[i]? = some x →
    ∃ a, stored na ((w :: wfn').map cut) i = some a ∧ Blocks norb na nb v a ((cut x).right na)) coeffs.length hdet
  refine ⟨g, ws, psi0, hw, ?_, by rw [m2, hlen], fun i x v hx hv => m3 i v hv x hx, ?_⟩
  · unfold readNomsd
    rw [if_pos (show electronsOk g.na g.nb ne = true from hne)]
    simp only
    rw [if_pos (show g.coeffs.length = g.nci from rfl)]
    have hu : (g.wtype == 2) = true := rfl
    rw [hu, hpsi0, Option.bind_some, show g.nci = coeffs.length from rfl, m1]
    rfl
  · intro x hx
    simp only [List.head?_cons, Option.some.injEq] at hx
    subst hx
    exact same_of_blocks psi0 (cut w) norb na nb p2 p3 hrw hcw fun i hi =>
      ⟨fun j hj => (p4 i hi).1 j hj, fun j hj => (p4 i hi).2 j hj⟩

/-- The property of C47 for unrestricted expansions, read with the electron numbers as the callers do. -/
def NomsdRoundTrip (coeffs : List ℂ) (wfn : List Arr) (nelec : Nat × Nat) (norb : Nat) : Prop :=
  ∃ g ws psi0, writeNomsd coeffs wfn .uhf nelec norb none = some g ∧
    readNomsd g (some nelec) = some (coeffs, ws, psi0) ∧ List.Forall₂ (fun w v => v.Same (cut w)) wfn ws ∧
    ∀ w, wfn.head? = some w → psi0.Same (cut w)

/-- **C47** (partial): one determinant and as many alpha as beta electrons. -/
theorem nomsd_single_partial (c : ℂ) (w : Arr) (k norb : Nat) (hk : 0 < k) (hr : w.r = norb) (hc : w.c = k + k) :
    NomsdRoundTrip [c] [w] (k, k) norb := by
  obtain ⟨g, ws, psi0, h1, h2, h3, h4, h5⟩ := nomsd_uhf [c] [w] (k, k) norb
    ⟨by simp, rfl, by simpa using hr, by simpa using hc⟩ hk hk (Or.inl rfl) (some (k, k)) (by simp [electronsOk])
  refine ⟨g, ws, psi0, h1, h2, ?_, h5⟩
  obtain ⟨v, rfl⟩ := List.length_eq_one_iff.1 h3
  refine .cons ?_ .nil
  obtain ⟨a, ha, b1, b2, b3⟩ := h4 0 w v rfl rfl
  simp [stored] at ha
  subst ha
  exact same_of_blocks v (cut w) norb k k b1 b2 hr hc fun i hi =>
    ⟨fun j hj => (b3 i hi).1 j hj, fun j hj => (b3 i hi).2 j hj⟩

/-- The threshold changes no element by more than `10⁻⁸`. -/
theorem cut_close (w : Arr) (i j : Nat) : ‖(cut w).f i j - w.f i j‖ ≤ 1 / 10 ^ 8 := by
  unfold cut
  simp only
  split_ifs with h
  · rw [zero_sub, norm_neg]; exact h.le
  · simp

/-- Different numbers of electrons: reading with the right electron numbers always fails. -/
theorem nomsd_unequal_refused (coeffs : List ℂ) (wfn : List Arr) (wt : WType) (nelec : Nat × Nat) (norb : Nat)
    (init : Option (Arr × Arr)) (g : Nomsd) (hne : nelec.1 ≠ nelec.2)
    (hw : writeNomsd coeffs wfn wt nelec norb init = some g) : readNomsd g (some nelec) = none := by
  have hg : g.na = nelec.1 ∧ g.nb = nelec.2 := by
    unfold writeNomsd at hw
    simp only at hw
    split at hw
    · cases hw; exact ⟨rfl, rfl⟩
    · cases hw; exact ⟨rfl, rfl⟩
    · cases hw
  unfold readNomsd
  rw [if_neg]
  rw [hg.1, hg.2]
  simp [electronsOk, Ne.symm hne]

/-- Two determinants: the second one is read with the beta orbitals of the first as its alpha orbitals. -/
theorem nomsd_two_wrong (c₁ c₂ : ℂ) (w₁ w₂ : Arr) (k norb : Nat) (hk : 0 < k) (hr : w₁.r = norb ∧ w₂.r = norb)
    (hc : w₁.c = k + k ∧ w₂.c = k + k) (i j : Nat) (hi : i < norb) (hj : j < k)
    (hdiff : (cut w₁).f i (k + j) ≠ (cut w₂).f i j) : ¬ NomsdRoundTrip [c₁, c₂] [w₁, w₂] (k, k) norb := by
  rintro ⟨g, ws, psi0, h1, h2, h3, -⟩
  obtain ⟨g', ws', psi0', h1', h2', h3', h4', -⟩ := nomsd_uhf [c₁, c₂] [w₁, w₂] (k, k) norb
    ⟨by simp, rfl, by simpa using hr, by simpa using hc⟩ hk hk (Or.inr rfl) (some (k, k)) (by simp [electronsOk])
  rw [h1] at h1'
  cases h1'
  rw [h2] at h2'
  cases h2'
  obtain ⟨v₁, v₂, rfl⟩ := List.length_eq_two.1 h3'
  obtain ⟨a, ha, b1, b2, b3⟩ := h4' 1 w₂ v₂ rfl rfl
  simp [stored] at ha
  subst ha
  have hs : v₂.Same (cut w₂) := by
    cases h3 with
    | cons _ h => cases h with
      | cons h _ => exact h
  have e1 := (b3 i hi).1 j hj
  have e2 := hs.2.2 i (by rw [b1]; exact hi) j (by rw [b2]; show j < k + k; omega)
  exact hdiff (by rw [← e2, e1]; rfl)

/-- Without the electron numbers, and with `nb` neither `na` nor 1, several determinants cannot be read. -/
theorem nomsd_unequal_error (coeffs : List ℂ) (wfn : List Arr) (nelec : Nat × Nat) (norb : Nat) (g : Nomsd)
    (hs : Shaped coeffs wfn nelec norb) (hlen : 2 ≤ wfn.length) (h1 : nelec.1 ≠ nelec.2) (h2 : nelec.2 ≠ 1)
    (hw : writeNomsd coeffs wfn .uhf nelec norb none = some g) : readNomsd g none = none := by
  obtain ⟨-, hl, hr, hc⟩ := hs
  obtain ⟨w, w', wfn', rfl⟩ : ∃ w w' l, wfn = w :: w' :: l := by
    rcases wfn with _ | ⟨w, _ | ⟨w', l⟩⟩
    · simp at hlen
    · simp at hlen
    · exact ⟨w, w', l, rfl⟩
  obtain ⟨na, nb⟩ := nelec
  simp only at h1 h2 hc
  rw [writeNomsd_some] at hw
  rw [Option.some.injEq] at hw
  have hgna : g.na = na := by rw [← hw]
  have hT : g.psiT = writeDets true na 0 ((w :: w' :: wfn').map cut) := by rw [← hw]; rfl
  have hread : readNomsd g none = ((readPsi0 g true).bind fun psi0 =>
      ((List.range coeffs.length).mapM (readDet g true)).map fun ws => (coeffs, ws, psi0)) := by
    have h3 : g.coeffs = coeffs := by rw [← hw]
    have h4 : g.nci = coeffs.length := by rw [← hw]
    have h5 : (g.wtype == 2) = true := by rw [← hw]; rfl
    unfold readNomsd
    rw [if_pos (show electronsOk g.na g.nb none = true from rfl)]
    simp only
    rw [h5, h3, h4, if_pos rfl]
  rw [hread]
  change ((readPsi0 g true).bind fun psi0 => ((List.range coeffs.length).mapM (readDet g true)).map _) = none
  have hm : (List.range coeffs.length).mapM (readDet g true) = none := by
    refine mapM_none _ _ ⟨1, by rw [List.mem_range, hl]; simp, ?_⟩
    have hlk : g.psiT.lookup 1 = some (writeSingle ((cut w).right na).ct) := by
      have := lookup_stored na ((w :: w' :: wfn').map cut) 1
      rw [hT]
      simpa [stored] using this
    have hcb : ((cut w).right na).c = nb := by
      have : (cut w).c = na + nb := hc w (by simp)
      simp only [Arr.right]; omega
    unfold readDet lookupPsi
    rw [hlk, Option.bind_some]
    by_cases h0 : nb = 0
    · rw [orbs_empty _ (by simp only [Arr.ct]; omega)]
      rfl
    · rw [orbs_writeSingle _ (by simp only [Arr.ct]; omega), Option.bind_some]
      have : (Arr.zeros g.nmo (g.na + g.nb)).setCols 0 g.na (reread ((cut w).right na).ct) = none := by
        unfold Arr.setCols
        rw [if_neg]
        rintro ⟨-, h3⟩
        rw [(reread_same ((cut w).right na)).2.1, hcb] at h3
        omega
      rw [this]
      rfl
  rw [hm]
  cases readPsi0 g true <;> rfl

/-- No beta electrons: the single determinant of an unrestricted expansion cannot be read. -/
theorem nomsd_no_beta (c : ℂ) (w : Arr) (na norb : Nat) (g : Nomsd) (hc : w.c = na)
    (hw : writeNomsd [c] [w] .uhf (na, 0) norb none = some g) (ne : Option (Nat × Nat)) : readNomsd g ne = none := by
  rw [writeNomsd_some, Option.some.injEq] at hw
  have hT : g.psiT = writeDets true na 0 [cut w] := by rw [← hw]; rfl
  have h3 : g.coeffs = [c] := by rw [← hw]
  have h4 : g.nci = 1 := by rw [← hw]; rfl
  have h5 : (g.wtype == 2) = true := by rw [← hw]; rfl
  have hd : readDet g true 0 = none := by
    have hlk : lookupPsi g 1 = none := by
      unfold lookupPsi
      rw [hT, lookup_stored]
      simp only [stored, List.getElem?_cons_zero, Option.map_some, Nat.reduceDiv, Nat.reduceMod, one_ne_zero, if_false,
        Option.bind_some]
      exact orbs_empty _ (by simp only [Arr.ct, Arr.right, cut]; omega)
    unfold readDet
    simp only [if_true, Nat.mul_zero, Nat.zero_add, hlk, Option.bind_none]
    cases lookupPsi g 0 with
    | none => rfl
    | some pa =>
      simp only [Option.bind_some]
      cases (Arr.zeros g.nmo (g.na + g.nb)).setCols 0 g.na pa <;> rfl
  have hm : (List.range 1).mapM (readDet g true) = none := mapM_none _ _ ⟨0, by simp, hd⟩
  unfold readNomsd
  simp only [h5, h3, h4, hm]
  split_ifs
  · cases readPsi0 g true <;> rfl
  · rfl
  · rfl

/-! ## Particle-hole expansions -/

theorem drop_take_flatten {α : Type*} (k : Nat) : ∀ (l : List (List α)), (∀ x ∈ l, x.length = k) →
    (List.range l.length).map (fun i => (l.flatten.drop (i * k)).take k) = l ∧ l.flatten.length = l.length * k
  | [], _ => by simp
  | x :: l, h => by
    have hx := h x (by simp)
    obtain ⟨h1, h2⟩ := drop_take_flatten k l fun y hy => h y (List.mem_cons_of_mem _ hy)
    constructor
    · rw [List.length_cons, List.range_succ_eq_map, List.map_cons, List.map_map]
      congr 1
      · simp [← hx]
      · refine Eq.trans (List.map_congr_left fun i _ => ?_) h1
        simp only [Function.comp, List.flatten_cons]
        rw [show (i.succ) * k = x.length + i * k by rw [hx, Nat.succ_mul]; omega, ← List.drop_drop, List.drop_left]
    · rw [List.flatten_cons, List.length_append, h2, hx, List.length_cons, Nat.succ_mul]
      omega

/-- Integers for orbital numbers. -/
def ints (o : List Nat) : List Int := o.map fun (x : Nat) => (x : Int)

/-- **C48**: coefficients and occupations come back, and the reference is the first determinant, provided the electron
numbers pass the reader's test. -/
theorem phmsd_roundtrip (coeffs : List ℂ) (occa occb : List (List Nat)) (nelec : Nat × Nat) (norb : Nat)
    (hla : coeffs.length = occa.length) (hlb : occa.length = occb.length) (ha : ∀ o ∈ occa, o.length = nelec.1)
    (hb : ∀ o ∈ occb, o.length = nelec.2) (hna : ∀ o ∈ occa, ∀ x ∈ o, x < norb) (hnb : ∀ o ∈ occb, ∀ x ∈ o, x < norb)
    (hne : occa ≠ []) (ne : Option (Nat × Nat)) (hok : electronsOk nelec.1 nelec.2 ne = true) :
    ∃ g psi0, writePhmsd coeffs occa occb nelec norb none = some g ∧
      readPhmsd g ne = some ((coeffs, occa.map ints, occb.map ints), psi0) ∧ psi0.r = norb ∧
      psi0.c = nelec.1 + nelec.2 ∧
      ∀ a b, occa.head? = some a → occb.head? = some b → ∀ i < norb, ∀ j < nelec.1 + nelec.2,
        psi0.f i j = if (a ++ b)[j]? = some i then 1 else 0 := by
  obtain ⟨na, nb⟩ := nelec
  obtain ⟨a, occa', rfl⟩ : ∃ w l, occa = w :: l := by
    cases occa with
    | nil => exact absurd rfl hne
    | cons w l => exact ⟨w, l, rfl⟩
  obtain ⟨b, occb', rfl⟩ : ∃ w l, occb = w :: l := by
    cases occb with
    | nil => simp at hlb
    | cons w l => exact ⟨w, l, rfl⟩
  simp only at ha hb hok
  have ea : eyeCols norb a = some ⟨norb, a.length, fun i j => if a[j]? = some i then 1 else 0⟩ :=
    if_pos (hna a (by simp))
  have eb : eyeCols norb b = some ⟨norb, b.length, fun i j => if b[j]? = some i then 1 else 0⟩ :=
    if_pos (hnb b (by simp))
  have haa : a.length = na := ha a (by simp)
  have hbb : b.length = nb := hb b (by simp)
  obtain ⟨psi0, p1, p2, p3, p4⟩ := assemble_ok norb na nb ⟨norb, a.length, fun i j => if a[j]? = some i then 1 else 0⟩
    ⟨norb, b.length, fun i j => if b[j]? = some i then 1 else 0⟩ rfl haa rfl hbb
  set rows : List (List Int) := List.zipWith (fun a b => a.map (fun (o : Nat) => (o : Int)) ++
    b.map (fun (o : Nat) => (norb : Int) + o)) (a :: occa') (b :: occb') with hrows
  have hlen : rows.length = coeffs.length := by
    rw [hrows, List.length_zipWith, hla, ← hlb, min_self]
  have hk : ∀ x ∈ rows, x.length = na + nb := by
    intro x hx
    rw [hrows, List.mem_iff_getElem?] at hx
    obtain ⟨i, hi⟩ := hx
    rw [List.getElem?_zipWith] at hi
    cases h1 : (a :: occa')[i]? with
    | none => simp [h1] at hi
    | some u =>
      cases h2 : (b :: occb')[i]? with
      | none => simp [h2] at hi
      | some v =>
        rw [h1, h2] at hi
        simp only [Option.some.injEq] at hi
        rw [← hi, List.length_append, List.length_map, List.length_map, ha u (List.mem_of_getElem? h1),
          hb v (List.mem_of_getElem? h2)]
  obtain ⟨f1, f2⟩ := drop_take_flatten (na + nb) rows hk
  have hresh : reshape coeffs.length (na + nb) rows.flatten = some rows := by
    unfold reshape
    rw [if_pos (by rw [f2, hlen]), ← hlen, f1]
  refine ⟨⟨norb, na, nb, 2, coeffs.length, coeffs, ⟨norb, a.length, fun i j => if a[j]? = some i then 1 else 0⟩,
    some ⟨norb, b.length, fun i j => if b[j]? = some i then 1 else 0⟩, rows.flatten⟩, psi0, ?_, ?_, p2, p3, ?_⟩
  · unfold writePhmsd
    rw [if_pos ⟨ha, hb, hlb⟩]
    simp only [ea, eb, Option.bind_some, Option.map_some]
    rfl
  · have e1 : rows.map (fun o => o.take na) = (a :: occa').map ints := by
      rw [hrows]
      apply List.ext_getElem?
      intro i
      rw [List.getElem?_map, List.getElem?_zipWith, List.getElem?_map]
      cases h1 : (a :: occa')[i]? with
      | none => simp
      | some u =>
        cases h2 : (b :: occb')[i]? with
        | none =>
          rw [List.getElem?_eq_none_iff] at h2
          have := (List.getElem?_eq_some_iff.1 h1).1
          omega
        | some v =>
          simp only [Option.map_some, Option.some.injEq]
          rw [List.take_left' (by simp [ha u (List.mem_of_getElem? h1)])]
          rfl
    have e2 : rows.map (fun o => (o.drop na).map fun x => x - (norb : Int)) = (b :: occb').map ints := by
      rw [hrows]
      apply List.ext_getElem?
      intro i
      rw [List.getElem?_map, List.getElem?_zipWith, List.getElem?_map]
      cases h1 : (a :: occa')[i]? with
      | none =>
        rw [List.getElem?_eq_none_iff] at h1
        rw [List.getElem?_eq_none (show (b :: occb').length ≤ i by omega)]
        simp
      | some u =>
        cases h2 : (b :: occb')[i]? with
        | none => simp
        | some v =>
          simp only [Option.map_some, Option.some.injEq]
          rw [List.drop_left' (by simp [ha u (List.mem_of_getElem? h1)]), List.map_map]
          simp [ints, Function.comp_def]
    rw [Option.bind_eq_some_iff] at p1
    obtain ⟨w, w1, w2⟩ := p1
    unfold readPhmsd
    simp only [hok, hresh, w1, w2, e1, e2, Option.bind_some, Option.map_some, if_true]
    rfl
  · intro a' b' h1 h2 i hi j hj
    simp only [List.head?_cons, Option.some.injEq] at h1 h2
    subst h1; subst h2
    simp only at hj
    by_cases hja : j < na
    · rw [(p4 i hi).1 j hja, List.getElem?_append_left (by omega)]
    · have := (p4 i hi).2 (j - na) (by omega)
      rw [show na + (j - na) = j by omega] at this
      rw [this, List.getElem?_append_right (by omega), haa]

/-- **C48** fails when the electron numbers differ and are passed to the reader. -/
theorem phmsd_unequal_refused (coeffs : List ℂ) (occa occb : List (List Nat)) (nelec : Nat × Nat) (norb : Nat)
    (init : Option (Arr × Arr)) (g : Phmsd) (hne : nelec.1 ≠ nelec.2)
    (hw : writePhmsd coeffs occa occb nelec norb init = some g) : readPhmsd g (some nelec) = none := by
  have hg : g.na = nelec.1 ∧ g.nb = nelec.2 := by
    unfold writePhmsd at hw
    split_ifs at hw
    simp only [Option.map_eq_some_iff] at hw
    obtain ⟨p, -, rfl⟩ := hw
    exact ⟨rfl, rfl⟩
  unfold readPhmsd
  rw [if_neg]
  rw [hg.1, hg.2]
  simp [electronsOk, Ne.symm hne]

/-! ### Examples -/

/-- Two orbitals, one alpha and one beta electron, alpha in the first, beta in the second orbital. -/
def exArr : Arr := ⟨2, 2, fun i j => if i = j then 1 else 0⟩

/-- The same with the spins exchanged. -/
def exArr' : Arr := ⟨2, 2, fun i j => if i + j = 1 then Complex.I else 0⟩

example : NomsdRoundTrip [1] [exArr] (1, 1) 2 := nomsd_single_partial 1 exArr 1 2 (by omega) rfl rfl

/-- Two equal determinants with different spin orbitals are already misread. -/
example : ¬ NomsdRoundTrip [1, 1] [exArr, exArr] (1, 1) 2 := by
  refine nomsd_two_wrong 1 1 exArr exArr 1 2 (by omega) ⟨rfl, rfl⟩ ⟨rfl, rfl⟩ 0 0 (by omega) (by omega) ?_
  simp [cut, exArr]
  norm_num

example : Shaped [1, 2] [exArr, exArr'] (1, 1) 2 := ⟨by simp, rfl, by simp [exArr, exArr'], by simp [exArr, exArr']⟩

example : ∃ g psi0, writePhmsd [1, Complex.I] [[0, 1], [0, 2]] [[0, 2], [1, 2]] (2, 2) 3 none = some g ∧
    readPhmsd g (some (2, 2)) = some (([1, Complex.I], [[0, 1], [0, 2]], [[0, 2], [1, 2]]), psi0) := by
  obtain ⟨g, psi0, h1, h2, -⟩ := phmsd_roundtrip [1, Complex.I] [[0, 1], [0, 2]] [[0, 2], [1, 2]] (2, 2) 3 rfl rfl
    (by decide) (by decide) (by decide) (by decide) (by decide) (some (2, 2)) (by decide)
  exact ⟨g, psi0, h1, h2⟩

end Verif.Files
