import Verif.Hier.Unlink
import Verif.Hier.Tiling

/-!
# Constraining and fixing in well-formed heaps
-/

set_option linter.unusedSectionVars false

namespace Paramz.Hier

open IndexOps (Arr Dict Iop lookup)
open Graph (Anc At Skel Sized Ins)

namespace Heap

variable {T : Type} [DecidableEq T]

/-- A call the library accepts: the object exists, and a part is a selection of existing elements of a
`Param`. -/
structure Target.OK (h : Heap T) (x : Target) : Prop where
  lt : x.obj < h.next
  part : ∀ a, x.part = some a → h.leaf x.obj = true ∧ ∀ i ∈ a, i < h.size x.obj

/-- Everything but dictionary contents and masks is the same. -/
structure Same (h h' : Heap T) : Prop where
  graph : h'.toGraph = h.toGraph
  iop : h'.iop = h.iop
  nextDict : h'.nextDict = h.nextDict
  inInit : h'.inInit = h.inInit
  inited : h'.inited = h.inited
  visited : h'.visited = h.visited

theorem Same.refl (h : Heap T) : Same h h := ⟨rfl, rfl, rfl, rfl, rfl, rfl⟩

theorem Same.trans {h h' h'' : Heap T} (a : Same h h') (b : Same h' h'') : Same h h'' :=
  ⟨b.1.trans a.1, b.2.trans a.2, b.3.trans a.3, b.4.trans a.4, b.5.trans a.5, b.6.trans a.6⟩

/-- Effect of an operation on the constraints of the hierarchy with root `r`: afterwards element `j`
of `r` carries `u` iff `R u j`. -/
structure Eff (h h' : Heap T) (r : Id) (R : Con T → Nat → Prop) : Prop where
  same : Same h h'
  other : ∀ e, e ≠ (h.iop r).1 → h'.dicts e = h.dicts e
  mem : ∀ u j, j ∈ lookup (h'.dicts (h.iop r).1) u ↔ R u j

/-- The mask is right. -/
def MaskOK (n : Nat) (fixed : Arr) (M : Option (List Bool)) : Prop :=
  (M = none → fixed = []) ∧ ∀ m, M = some m → m = maskOf n fixed

/-- Replace dictionary and mask of a root. -/
def setRoot (h : Heap T) (r : Id) (D : Dict (Con T)) (M : Option (List Bool)) : Heap T :=
  { h with dicts := upd h.dicts (h.iop r).1 D, fixes := upd h.fixes r M }

theorem setRoot_wf {h : Heap T} (w : WF h) {r : Id} (hr : h.parent r = none) (hrlt : r < h.next)
    {D : Dict (Con T)} {M : Option (List Bool)} (hD : IndexOps.WF D)
    (hb : ∀ t i, i ∈ lookup D t → i < h.size r)
    (hs : ∀ t u i, i ∈ lookup D (.tr t) → i ∈ lookup D (.tr u) → t = u)
    (hm : h.leaf r = false → (M = h.fixes r ∧ lookup D .fixed = lookup (h.dicts (h.iop r).1) .fixed) ∨
      MaskOK (h.size r) (lookup D .fixed) M) :
    WF (h.setRoot r D M) := by
  have hd : ∀ p, p < h.next → h.parent p = none → p ≠ r →
      (h.setRoot r D M).dicts (h.iop p).1 = h.dicts (h.iop p).1 := by
    intro p hp hpn hne
    exact upd_ne _ _ (fun he => hne (w.inj p r hp hrlt hpn hr he))
  have hdr : (h.setRoot r D M).dicts (h.iop r).1 = D := upd_same _ _ _
  have hfr : (h.setRoot r D M).fixes r = M := upd_same _ _ _
  have hf : ∀ p, p ≠ r → (h.setRoot r D M).fixes p = h.fixes p := fun p hp => upd_ne _ _ hp
  constructor
  · exact w.skel
  · exact w.sized
  · exact w.root
  · exact w.inj
  · exact w.view
  · intro p hp hpn
    show IndexOps.WF ((h.setRoot r D M).dicts (h.iop p).1)
    by_cases hne : p = r
    · subst hne; rw [hdr]; exact hD
    · rw [hd p hp hpn hne]; exact w.dict p hp hpn
  · intro p hp hpn
    show ∀ t i, i ∈ lookup ((h.setRoot r D M).dicts (h.iop p).1) t → i < h.size p
    by_cases hne : p = r
    · subst hne; rw [hdr]; exact hb
    · rw [hd p hp hpn hne]; exact w.bound p hp hpn
  · intro p hp hpn
    show ∀ t u i, i ∈ lookup ((h.setRoot r D M).dicts (h.iop p).1) (.tr t) →
      i ∈ lookup ((h.setRoot r D M).dicts (h.iop p).1) (.tr u) → t = u
    by_cases hne : p = r
    · subst hne; rw [hdr]; exact hs
    · rw [hd p hp hpn hne]; exact w.single p hp hpn
  · intro p hp hpn hl m hmm
    show m.length ≤ h.size p ∧ (m.length = h.size p →
      m = maskOf (h.size p) (lookup ((h.setRoot r D M).dicts (h.iop p).1) .fixed))
    by_cases hne : p = r
    · subst hne
      rw [hfr] at hmm
      rw [hdr]
      rcases hm hl with ⟨h1, h2⟩ | h1
      · rw [h2]; rw [h1] at hmm
        exact w.mask p hp hpn hl m hmm
      · have := h1.2 m hmm
        exact ⟨by rw [this]; simp [maskOf], fun _ => this⟩
    · rw [hd p hp hpn hne]
      rw [hf p hne] at hmm
      exact w.mask p hp hpn hl m hmm
  · intro p hp hpn hl h1 h2
    show (_ → lookup ((h.setRoot r D M).dicts (h.iop p).1) .fixed = []) ∧
      ∀ m, (h.setRoot r D M).fixes p = some m → m.length = h.size p
    by_cases hne : p = r
    · subst hne
      rw [hfr, hdr]
      rcases hm hl with ⟨h3, h4⟩ | h3
      · rw [h3, h4]; exact w.ready p hp hpn hl h1 h2
      · refine ⟨h3.1, fun m hmm => ?_⟩
        rw [h3.2 m hmm]; simp [maskOf]
    · rw [hd p hp hpn hne, hf p hne]
      exact w.ready p hp hpn hl h1 h2

/-- Where a target lives. -/
theorem Target.OK.ctx {h : Heap T} (w : WF h) {x : Target} (hx : x.OK h) :
    ∃ r o, h.parent r = none ∧ r < h.next ∧ At h.toGraph r x.obj o ∧
      (h.iop x.obj).1 = (h.iop r).1 ∧ (h.iop x.obj).2.offset = o ∧
      h.toGraph.highest x.obj = r ∧ h.toGraph.offsetFor r x.obj = o ∧
      (∀ i ∈ x.index h, i < h.size x.obj) ∧
      (x.part ≠ none → h.parent x.obj = none → h.leaf r = true) := by
  obtain ⟨r, hr, hra⟩ := w.skel.exists_root x.obj
  have hrlt := w.skel.anc_lt hra hx.lt
  obtain ⟨o, hq⟩ := w.skel.exists_at hra
  refine ⟨r, o, hr, hrlt, hq, ?_, ?_, w.skel.highest_eq hr hra, w.skel.offsetFor_of_root hr hq,
    ?_, ?_⟩
  · by_cases hqr : x.obj = r
    · rw [hqr]
    · rw [w.view r x.obj o hrlt hr hq hqr]
  · by_cases hqr : x.obj = r
    · rw [hqr] at hq ⊢
      rw [(w.root r hrlt hr).1, w.skel.at_self hq]; rfl
    · rw [w.view r x.obj o hrlt hr hq hqr]
      simp [Iop.offset, IndexOps.Spec.offset]
  · intro i hi
    unfold Target.index at hi
    split at hi
    · exact List.mem_range.mp hi
    · rename_i a ha; exact (hx.part a ha).2 i hi
  · intro h1 h2
    cases hp : x.part with
    | none => exact absurd hp h1
    | some a =>
      have := (hx.part a hp).1
      rwa [← (Graph.anc_root h2).mp hra] at this

theorem setAll_maskOf {n : Nat} {F fx S : Arr} {b : Bool}
    (h1 : ∀ i, i ∈ S → decide (i ∉ fx) = b) (h2 : ∀ i, i ∉ S → (i ∈ F ↔ i ∈ fx)) :
    setAll (maskOf n F) S b = maskOf n fx := by
  unfold setAll
  have hl : (maskOf n F).length = n := by simp [maskOf]
  rw [hl]
  unfold maskOf
  apply List.map_congr_left
  intro i hi
  have hi' := List.mem_range.mp hi
  by_cases hS : i ∈ S
  · rw [if_pos hS, h1 i hS]
  · rw [if_neg hS]
    simp [List.getD_eq_getElem?_getD, hi', h2 i hS]

theorem all_maskOf {n : Nat} {fx : Arr} (hb : ∀ i ∈ fx, i < n) :
    (maskOf n fx).all id = true ↔ fx = [] := by
  unfold maskOf
  simp only [List.all_map, List.all_eq_true, List.mem_range, Function.comp_apply, id,
    decide_eq_true_eq]
  constructor
  · intro h
    by_contra hne
    obtain ⟨i, hi⟩ := List.exists_mem_of_ne_nil _ hne
    exact h i (hb i hi) hi
  · rintro rfl i _; simp

/-- The mask `_set_fixed`/`_set_unfixed` leave behind, if the old mask of the root was right for `F`
or out of date. -/
theorem setMask_eq {h : Heap T} {r x : Id} {index : Arr} {b : Bool} {F : Arr}
    (hbase : (h.iop r).2 = .base)
    (hl : h.leaf r = false)
    (hF : ∀ m, h.fixes r = some m → m.length = h.size r → m = maskOf (h.size r) F)
    (hb : ∀ i ∈ lookup (h.dicts (h.iop r).1) .fixed, i < h.size r)
    (h1 : ∀ i, i ∈ index.map (· + h.toGraph.offsetFor r x) →
      decide (i ∉ lookup (h.dicts (h.iop r).1) .fixed) = b)
    (h2 : ∀ i, i ∉ index.map (· + h.toGraph.offsetFor r x) →
      (i ∈ F ↔ i ∈ lookup (h.dicts (h.iop r).1) .fixed)) :
    ∃ M, MaskOK (h.size r) (lookup (h.dicts (h.iop r).1) .fixed) M ∧
      h.setMask r x index b = { h with fixes := upd h.fixes r M } := by
  have hc : h.constraints r .fixed = lookup (h.dicts (h.iop r).1) .fixed := by
    unfold constraints; rw [hbase, Iop.get_base]
  have he : setAll (h.ensureFixes r) (index.map (· + h.toGraph.offsetFor r x)) b =
      maskOf (h.size r) (lookup (h.dicts (h.iop r).1) .fixed) := by
    have fresh : setAll (maskOf (h.size r) (lookup (h.dicts (h.iop r).1) .fixed))
        (index.map (· + h.toGraph.offsetFor r x)) b =
        maskOf (h.size r) (lookup (h.dicts (h.iop r).1) .fixed) :=
      setAll_maskOf h1 (fun i _ => Iff.rfl)
    unfold ensureFixes
    simp only [hl, hc, Bool.false_eq_true, if_false]
    cases hf : h.fixes r with
    | none => exact fresh
    | some m =>
      simp only
      by_cases hlen : m.length = h.size r
      · rw [if_neg (not_not.mpr hlen), hF m hf hlen]
        exact setAll_maskOf h1 h2
      · rw [if_pos hlen]; exact fresh
  refine ⟨if (maskOf (h.size r) (lookup (h.dicts (h.iop r).1) .fixed)).all id then none
    else some (maskOf (h.size r) (lookup (h.dicts (h.iop r).1) .fixed)), ?_, ?_⟩
  · split
    · rename_i h3; exact ⟨fun _ => (all_maskOf hb).mp h3, fun m hm => (by cases hm)⟩
    · exact ⟨fun hm => (by cases hm), fun m hm => (by cases hm; rfl)⟩
  · simp only [setMask, he]

/-! ### What `remove` returns -/

theorem mem_remove_snd {d : Dict (Con T)} (hd : IndexOps.WF d) (p : Con T) (ind : Arr) (i : Nat) :
    (i ∈ (IndexOps.remove d p ind).2 → i ∈ ind) ∧
    (i ∈ lookup d p → i ∈ ind → i ∈ (IndexOps.remove d p ind).2) := by
  have hn : (lookup d p).Nodup := (hd.lookup p).imp (fun h => Nat.ne_of_lt h)
  have hcount := List.nodup_iff_count_le_one.mp hn i
  unfold IndexOps.remove
  split
  · simp only [IndexOps.intersect1d]
    rw [IndexOps.adjacentEqual_spec _ (List.pairwise_insertionSort _ _),
      (List.perm_insertionSort (· ≤ ·) _).count_eq, List.count_append]
    constructor
    · intro h
      exact List.count_pos_iff.mp (by omega)
    · intro h1 h2
      have := List.count_pos_iff.mpr h1
      have := List.count_pos_iff.mpr h2
      omega
  · rename_i hk
    refine ⟨fun h => absurd h (by simp), fun h => ?_⟩
    have : lookup d p = [] := by
      by_contra hne
      have := IndexOps.mem_of_lookup hne
      apply hk
      simp only [IndexOps.hasKey, List.any_eq_true]
      exact ⟨_, this, by simp⟩
    rw [this] at h; simp at h

theorem mem_removed (v : Iop) {d : Dict (Con T)} (hd : IndexOps.WF d) (p : Con T) (ind : Arr)
    (i : Nat) :
    (i ∈ (v.remove d p ind).2.map (· + v.offset) → i ∈ ind.map (· + v.offset)) ∧
    (i ∈ lookup d p → i ∈ ind.map (· + v.offset) →
      i ∈ (v.remove d p ind).2.map (· + v.offset)) := by
  have hm := mem_remove_snd hd p (ind.map (· + v.offset))
  rw [Iop.remove_snd_eq, List.map_map]
  have hid : List.map ((fun x => x + v.offset) ∘ fun x => x - v.offset)
      (IndexOps.remove d p (ind.map (· + v.offset))).2 =
      (IndexOps.remove d p (ind.map (· + v.offset))).2 := by
    conv_rhs => rw [← List.map_id (IndexOps.remove d p (ind.map (· + v.offset))).2]
    apply List.map_congr_left
    intro j hj
    have := (hm j).1 hj
    rw [List.mem_map] at this
    obtain ⟨k, _, rfl⟩ := this
    simp
  rw [hid]
  exact hm i

/-! ### The operations -/

/-- A target together with its root and position. -/
structure Ctx (h : Heap T) (x : Target) (r o : Nat) : Prop where
  root : h.parent r = none
  lt : r < h.next
  pos : At h.toGraph r x.obj o
  dict : (h.iop x.obj).1 = (h.iop r).1
  off : (h.iop x.obj).2.offset = o
  highest : h.toGraph.highest x.obj = r
  offsetFor : h.toGraph.offsetFor r x.obj = o
  bound : ∀ i ∈ x.index h, i < h.size x.obj
  orphan : x.part ≠ none → h.parent x.obj = none → h.leaf r = true

theorem Target.OK.exists_ctx {h : Heap T} (w : WF h) {x : Target} (hx : x.OK h) :
    ∃ r o, Ctx h x r o := by
  obtain ⟨r, o, h1, h2, h3, h4, h5, h6, h7, h8, h9⟩ := hx.ctx w
  exact ⟨r, o, h1, h2, h3, h4, h5, h6, h7, h8, h9⟩

theorem index_congr {h h' : Heap T} (hs : Same h h') (x : Target) : x.index h' = x.index h := by
  unfold Target.index
  rw [show h'.size = h.size from by rw [hs.graph]]

theorem Ctx.same {h h' : Heap T} (hs : Same h h') {x : Target} {r o : Nat} (c : Ctx h x r o) :
    Ctx h' x r o := by
  have hp : h'.parent = h.parent := by rw [hs.graph]
  have hl : h'.leaf = h.leaf := by rw [hs.graph]
  have hsz : h'.size = h.size := by rw [hs.graph]
  have hn : h'.next = h.next := by rw [hs.graph]
  obtain ⟨h1, h2, h3, h4, h5, h6, h7, h8, h9⟩ := c
  constructor
  · rw [hp]; exact h1
  · rw [hn]; exact h2
  · rw [hs.graph]; exact h3
  · rw [hs.iop]; exact h4
  · rw [hs.iop]; exact h5
  · rw [hs.graph]; exact h6
  · rw [hs.graph]; exact h7
  · rw [index_congr hs, hsz]; exact h8
  · rw [hp, hl]; exact h9

/-- Element `j` of the root `r` is an element of the target. -/
def Covers (h : Heap T) (x : Target) (o j : Nat) : Prop := j ∈ (x.index h).map (· + o)

theorem Ctx.covers_lt {h : Heap T} (w : WF h) {x : Target} {r o j : Nat} (c : Ctx h x r o)
    (hj : Covers h x o j) : j < h.size r := by
  unfold Covers at hj
  rw [List.mem_map] at hj
  obtain ⟨k, hk, rfl⟩ := hj
  have h1 := c.bound k hk
  have h2 := c.pos.window w.skel w.sized
  have e1 : h.toGraph.size x.obj = h.size x.obj := rfl
  have e2 : h.toGraph.size r = h.size r := rfl
  omega

/-- `setRootMask` after the dictionary of the root has been replaced. -/
theorem setRootMask_spec {h : Heap T} (w : WF h) {x : Target} {r o : Nat} (c : Ctx h x r o)
    (D : Dict (Con T)) (index : Arr) (b : Bool)
    (hb : ∀ t i, i ∈ lookup D t → i < h.size r)
    (h1 : ∀ i, i ∈ index.map (· + o) → decide (i ∉ lookup D .fixed) = b)
    (h2 : ∀ i, i ∉ index.map (· + o) →
      (i ∈ lookup (h.dicts (h.iop r).1) .fixed ↔ i ∈ lookup D .fixed)) :
    ∃ M, (h.leaf r = false → MaskOK (h.size r) (lookup D .fixed) M) ∧
      ({ h with dicts := upd h.dicts (h.iop r).1 D } : Heap T).setRootMask x index b =
        h.setRoot r D M := by
  have hself : ∀ f : Id → Option (List Bool), upd f r (f r) = f := by
    intro f; funext y
    by_cases hy : y = r
    · subst hy; simp
    · simp [upd, hy]
  set h' : Heap T := { h with dicts := upd h.dicts (h.iop r).1 D } with hh'
  by_cases hp : x.part ≠ none ∧ h.parent x.obj = none
  · refine ⟨h.fixes r, fun hl => ?_, ?_⟩
    · rw [c.orphan hp.1 hp.2] at hl; cases hl
    · unfold setRootMask
      rw [if_pos hp]
      simp only [setRoot, hself, hh']
  · have hg : h'.toGraph = h.toGraph := rfl
    have hsm : h'.setRootMask x index b = h'.setMask r x.obj index b := by
      unfold setRootMask
      rw [if_neg hp, hg, c.highest]
    rw [hsm]
    cases hl : h.leaf r with
    | true =>
      refine ⟨(h'.setMask r x.obj index b).fixes r, fun h => (by cases h), ?_⟩
      simp only [setMask, setRoot, upd_same, hh']
    | false =>
      have hdr : h'.dicts (h.iop r).1 = D := upd_same _ _ _
      obtain ⟨M, hM, he⟩ := setMask_eq (h := h') (r := r) (x := x.obj) (index := index) (b := b)
        (F := lookup (h.dicts (h.iop r).1) .fixed) (w.root r c.lt c.root).1 hl
        (fun m hm hlen => (w.mask r c.lt c.root hl m hm).2 hlen)
        (by show ∀ i ∈ lookup (h'.dicts (h.iop r).1) .fixed, i < h.size r
            rw [hdr]; exact hb .fixed)
        (by show ∀ i, i ∈ index.map (· + h.toGraph.offsetFor r x.obj) →
              decide (i ∉ lookup (h'.dicts (h.iop r).1) .fixed) = b
            rw [hdr, c.offsetFor]; exact h1)
        (by show ∀ i, i ∉ index.map (· + h.toGraph.offsetFor r x.obj) →
              (_ ↔ i ∈ lookup (h'.dicts (h.iop r).1) .fixed)
            rw [hdr, c.offsetFor]; exact h2)
      refine ⟨M, fun _ => ?_, ?_⟩
      · have : MaskOK (h.size r) (lookup (h'.dicts (h.iop r).1) .fixed) M := hM
        rwa [hdr] at this
      · rw [he]; rfl

theorem setRoot_eff {h : Heap T} {r : Id} {D : Dict (Con T)} {M : Option (List Bool)}
    {R : Con T → Nat → Prop} (hm : ∀ u j, j ∈ lookup D u ↔ R u j) : Eff h (h.setRoot r D M) r R := by
  refine ⟨⟨rfl, rfl, rfl, rfl, rfl, rfl⟩, fun e he => upd_ne _ _ he, fun u j => ?_⟩
  show j ∈ lookup (upd h.dicts (h.iop r).1 D (h.iop r).1) u ↔ _
  rw [upd_same]; exact hm u j

theorem setRoot_self (h : Heap T) (r : Id) (D : Dict (Con T)) :
    ({ h with dicts := upd h.dicts (h.iop r).1 D } : Heap T) = h.setRoot r D (h.fixes r) := by
  unfold setRoot
  congr 1
  funext y
  by_cases hy : y = r
  · subst hy; simp
  · simp [upd, hy]

theorem dicts_self (h : Heap T) (e : Nat) :
    ({ h with dicts := upd h.dicts e (h.dicts e) } : Heap T) = h := by
  have : upd h.dicts e (h.dicts e) = h.dicts := by
    funext y
    by_cases hy : y = e
    · subst hy; simp
    · simp [upd, hy]
  rw [this]

/-- Taking one constraint off the target. -/
theorem unconstrainOne_spec {h : Heap T} (w : WF h) {x : Target} {r o : Nat} (c : Ctx h x r o)
    (t : Con T) :
    WF (h.unconstrainOne x t) ∧ Eff h (h.unconstrainOne x t) r
      (fun u j => j ∈ lookup (h.dicts (h.iop r).1) u ∧ ¬ (u = t ∧ Covers h x o j)) := by
  set D := ((h.iop x.obj).2.remove (h.dicts (h.iop r).1) t (x.index h)).1 with hD
  have hwd := w.dict r c.lt c.root
  have hlook : ∀ u j, j ∈ lookup D u ↔
      j ∈ lookup (h.dicts (h.iop r).1) u ∧ ¬ (u = t ∧ Covers h x o j) := by
    intro u j
    rw [hD, Iop.remove_fst_eq, IndexOps.lookup_remove, c.off]
    by_cases hu : t = u
    · subst hu
      rw [if_pos rfl, IndexOps.mem_setdiff1d]
      simp [Covers]
    · rw [if_neg hu]
      simp [Ne.symm hu]
  have hDw : IndexOps.WF D := Iop.remove_wf _ hwd _ _
  have hb : ∀ u j, j ∈ lookup D u → j < h.size r := fun u j hj =>
    w.bound r c.lt c.root u j ((hlook u j).mp hj).1
  have hs : ∀ t u i, i ∈ lookup D (.tr t) → i ∈ lookup D (.tr u) → t = u := fun t u i h1 h2 =>
    w.single r c.lt c.root t u i ((hlook _ i).mp h1).1 ((hlook _ i).mp h2).1
  by_cases ht : t = .fixed
  · subst ht
    have key := fun i => mem_removed (h.iop x.obj).2 hwd .fixed (x.index h) i
    rw [c.off] at key
    obtain ⟨M, hM, he⟩ := setRootMask_spec w c D
      ((h.iop x.obj).2.remove (h.dicts (h.iop r).1) .fixed (x.index h)).2 true hb
      (by
        intro i hi
        rw [decide_eq_true_eq, hlook]
        rintro ⟨_, h2⟩
        exact h2 ⟨rfl, (key i).1 hi⟩)
      (by
        intro i hi
        rw [hlook]
        constructor
        · intro h1
          exact ⟨h1, fun h2 => hi ((key i).2 h1 h2.2)⟩
        · exact fun h1 => h1.1)
    have he' : h.unconstrainOne x .fixed = h.setRoot r D M := by
      rw [← he]
      simp only [unconstrainOne, if_true, c.dict]
      rfl
    rw [he']
    exact ⟨setRoot_wf w c.root c.lt hDw hb hs (fun hl => .inr (hM hl)), setRoot_eff hlook⟩
  · have he' : h.unconstrainOne x t = h.setRoot r D (h.fixes r) := by
      rw [← setRoot_self]
      simp only [unconstrainOne, if_neg ht, c.dict]
      rfl
    rw [he']
    refine ⟨setRoot_wf w c.root c.lt hDw hb hs (fun hl => .inl ⟨rfl, ?_⟩), setRoot_eff hlook⟩
    rw [hD, Iop.remove_fst_eq, IndexOps.lookup_remove, if_neg ht]

theorem covers_same {h h' : Heap T} (hs : Same h h') (x : Target) (o j : Nat) :
    Covers h' x o j ↔ Covers h x o j := by
  unfold Covers; rw [index_congr hs]

theorem unconstrain_fold {x : Target} {r o : Nat} (ts : List (Con T)) :
    ∀ {h : Heap T}, WF h → Ctx h x r o →
    WF (ts.foldl (fun h t => h.unconstrainOne x t) h) ∧
    Eff h (ts.foldl (fun h t => h.unconstrainOne x t) h) r
      (fun u j => j ∈ lookup (h.dicts (h.iop r).1) u ∧ ¬ (u ∈ ts ∧ Covers h x o j)) := by
  induction ts with
  | nil => intro h w c; exact ⟨w, .refl h, fun _ _ => rfl, by simp⟩
  | cons t ts ih =>
    intro h w c
    obtain ⟨w1, e1⟩ := unconstrainOne_spec w c t
    obtain ⟨w2, e2⟩ := ih w1 (c.same e1.same)
    refine ⟨w2, e1.same.trans e2.same, ?_, ?_⟩
    · intro e he
      rw [List.foldl_cons, e2.other e (by rw [e1.same.iop]; exact he), e1.other e he]
    · intro u j
      have := e2.mem u j
      rw [e1.same.iop, e1.mem, covers_same e1.same] at this
      rw [List.foldl_cons, this]
      simp only [List.mem_cons]
      tauto

theorem mem_properties (v : Iop) {d : Dict (Con T)} (hd : IndexOps.WF d) (t : Con T) :
    t ∈ v.properties d ↔ v.get d t ≠ [] := by
  have : v.properties d = (v.items d).map Prod.fst := by
    cases v <;> rfl
  rw [this, List.mem_map]
  constructor
  · rintro ⟨⟨u, a⟩, h1, rfl⟩
    rw [Iop.mem_items _ hd.keys] at h1
    rw [h1.1]; exact h1.2
  · intro h1
    exact ⟨(t, v.get d t), (Iop.mem_items _ hd.keys).mpr ⟨rfl, h1⟩, rfl⟩

/-- `unconstrain(*ts)`; without arguments everything is taken off. -/
theorem unconstrain_spec {h : Heap T} (w : WF h) {x : Target} {r o : Nat} (c : Ctx h x r o)
    (ts : List (Con T)) :
    WF (h.unconstrain x ts) ∧ Eff h (h.unconstrain x ts) r
      (fun u j => j ∈ lookup (h.dicts (h.iop r).1) u ∧ ¬ ((ts = [] ∨ u ∈ ts) ∧ Covers h x o j)) := by
  have hwd := w.dict r c.lt c.root
  unfold unconstrain
  by_cases hts : ts = []
  · subst hts
    rw [if_pos rfl]
    obtain ⟨w1, e1⟩ := unconstrain_fold ((h.iop x.obj).2.properties (h.dicts (h.iop x.obj).1)) w c
    refine ⟨w1, e1.same, e1.other, fun u j => ?_⟩
    rw [e1.mem, c.dict]
    simp only [true_or, true_and]
    refine and_congr_right (fun hj => not_congr ⟨fun h1 => h1.2, fun h1 => ⟨?_, h1⟩⟩)
    rw [mem_properties _ hwd]
    unfold Covers at h1
    rw [List.mem_map] at h1
    obtain ⟨k, hk, rfl⟩ := h1
    have : k ∈ h.constraints x.obj u := by
      rw [w.mem_constraints c.lt c.root c.pos]
      exact ⟨c.bound k hk, hj⟩
    unfold constraints at this
    rw [c.dict] at this
    exact List.ne_nil_of_mem this
  · rw [if_neg hts]
    obtain ⟨w1, e1⟩ := unconstrain_fold ts w c
    refine ⟨w1, e1.same, e1.other, fun u j => ?_⟩
    rw [e1.mem]
    simp [hts]

theorem addCon_lookup {h : Heap T} {x : Target} {r o : Nat} (c : Ctx h x r o) (t u : Con T) (j : Nat) :
    j ∈ lookup ((h.iop x.obj).2.add (h.dicts (h.iop r).1) t (x.index h)) u ↔
      j ∈ lookup (h.dicts (h.iop r).1) u ∨ (u = t ∧ Covers h x o j) := by
  rw [Iop.add_eq, IndexOps.lookup_add, c.off]
  by_cases hu : t = u
  · subst hu
    rw [if_pos rfl, IndexOps.mem_union1d]
    simp [Covers]
  · rw [if_neg hu]
    simp [Ne.symm hu]

/-- `constrain_fixed`. -/
theorem fix_spec {h : Heap T} (w : WF h) {x : Target} {r o : Nat} (c : Ctx h x r o) :
    WF (h.fix x) ∧ Eff h (h.fix x) r
      (fun u j => j ∈ lookup (h.dicts (h.iop r).1) u ∨ (u = .fixed ∧ Covers h x o j)) := by
  set D := (h.iop x.obj).2.add (h.dicts (h.iop r).1) .fixed (x.index h) with hD
  have hwd := w.dict r c.lt c.root
  have hlook := addCon_lookup c .fixed
  rw [← hD] at hlook
  have hDw : IndexOps.WF D := by rw [hD, Iop.add_eq]; exact hwd.add _ _
  have hb : ∀ u j, j ∈ lookup D u → j < h.size r := by
    intro u j hj
    rcases (hlook u j).mp hj with h1 | h1
    · exact w.bound r c.lt c.root u j h1
    · exact c.covers_lt w h1.2
  have hs : ∀ t u i, i ∈ lookup D (.tr t) → i ∈ lookup D (.tr u) → t = u := by
    intro t u i h1 h2
    rw [hlook] at h1 h2
    simp only [reduceCtorEq, false_and, or_false] at h1 h2
    exact w.single r c.lt c.root t u i h1 h2
  obtain ⟨M, hM, he⟩ := setRootMask_spec w c D (x.index h) false hb
    (by
      intro i hi
      rw [decide_eq_false_iff_not, not_not, hlook]
      exact .inr ⟨rfl, hi⟩)
    (by
      intro i hi
      rw [hlook]
      exact ⟨.inl, fun h1 => h1.resolve_right (fun h2 => hi h2.2)⟩)
  have he' : h.fix x = h.setRoot r D M := by
    rw [← he]
    simp only [fix, addCon, c.dict]
    rfl
  rw [he']
  exact ⟨setRoot_wf w c.root c.lt hDw hb hs (fun hl => .inr (hM hl)), setRoot_eff hlook⟩

/-- `constrain(t)`. -/
theorem constrain_spec {h : Heap T} (w : WF h) {x : Target} {r o : Nat} (c : Ctx h x r o) (t : T) :
    WF (h.constrain x (.tr t)) ∧ Eff h (h.constrain x (.tr t)) r
      (fun u j => (j ∈ lookup (h.dicts (h.iop r).1) u ∧ ¬ Covers h x o j) ∨
        (u = .tr t ∧ Covers h x o j)) := by
  obtain ⟨w1, e1⟩ := unconstrain_spec w c []
  have c1 := c.same e1.same
  show WF ((h.unconstrain x []).addCon x (.tr t)) ∧ Eff h ((h.unconstrain x []).addCon x (.tr t)) r _
  set h1 := h.unconstrain x [] with hh1
  set D := (h1.iop x.obj).2.add (h1.dicts (h1.iop r).1) (.tr t) (x.index h1) with hD
  have hwd := w1.dict r c1.lt c1.root
  have hlook : ∀ u j, j ∈ lookup D u ↔
      (j ∈ lookup (h.dicts (h.iop r).1) u ∧ ¬ Covers h x o j) ∨ (u = .tr t ∧ Covers h x o j) := by
    intro u j
    rw [hD, addCon_lookup c1, covers_same e1.same, e1.same.iop, e1.mem]
    simp
  have hDw : IndexOps.WF D := by rw [hD, Iop.add_eq]; exact hwd.add _ _
  have hb : ∀ u j, j ∈ lookup D u → j < h1.size r := by
    intro u j hj
    rw [hD, addCon_lookup c1] at hj
    rcases hj with h2 | h2
    · exact w1.bound r c1.lt c1.root u j h2
    · exact c1.covers_lt w1 h2.2
  have hs : ∀ t u i, i ∈ lookup D (.tr t) → i ∈ lookup D (.tr u) → t = u := by
    intro t u i h2 h3
    rw [hlook] at h2 h3
    rcases h2 with h2 | h2 <;> rcases h3 with h3 | h3
    · exact w.single r c.lt c.root t u i h2.1 h3.1
    · exact absurd h3.2 h2.2
    · exact absurd h2.2 h3.2
    · have a := h2.1; have b := h3.1; cases a; cases b; rfl
  have he' : h1.addCon x (.tr t) = h1.setRoot r D (h1.fixes r) := by
    rw [← setRoot_self]
    simp only [addCon, c1.dict]
    rfl
  rw [he']
  have w2 := setRoot_wf w1 (M := h1.fixes r) c1.root c1.lt hDw hb hs (fun hl => .inl ⟨rfl, by
    rw [hD, Iop.add_eq, IndexOps.lookup_add, if_neg (by simp)]⟩)
  refine ⟨w2, ?_⟩
  have e2 : Eff h1 (h1.setRoot r D (h1.fixes r)) r _ := setRoot_eff hlook
  refine ⟨e1.same.trans e2.same, fun e he => ?_, fun u j => ?_⟩
  · rw [e2.other e (by rw [e1.same.iop]; exact he), e1.other e he]
  · rw [← e2.mem u j, e1.same.iop]

/-- `unconstrain_fixed`. -/
theorem unfix_spec {h : Heap T} (w : WF h) {x : Target} {r o : Nat} (c : Ctx h x r o) :
    WF (h.unfix x) ∧ Eff h (h.unfix x) r
      (fun u j => j ∈ lookup (h.dicts (h.iop r).1) u ∧ ¬ (u = .fixed ∧ Covers h x o j)) := by
  obtain ⟨w1, e1⟩ := unconstrain_spec w c [.fixed]
  have c1 := c.same e1.same
  have hwd := w.dict r c.lt c.root
  have key := fun i => mem_removed (h.iop x.obj).2 hwd .fixed (x.index h) i
  rw [c.off] at key
  unfold unfix
  set h1 := h.unconstrain x [.fixed] with hh1
  set removed := ((h.iop x.obj).2.remove (h.dicts (h.iop x.obj).1) .fixed (x.index h)).2 with hrem
  have hself := dicts_self h1 (h1.iop r).1
  have hmem : ∀ u j, j ∈ lookup (h1.dicts (h1.iop r).1) u ↔
      j ∈ lookup (h.dicts (h.iop r).1) u ∧ ¬ (u = .fixed ∧ Covers h x o j) := by
    intro u j
    rw [e1.same.iop, e1.mem]; simp
  obtain ⟨M, hM, he⟩ := setRootMask_spec w1 c1 (h1.dicts (h1.iop r).1)
    (IndexOps.union1d [] removed) true (w1.bound r c1.lt c1.root)
    (by
      intro i hi
      rw [decide_eq_true_eq, hmem]
      rintro ⟨_, h2⟩
      refine h2 ⟨rfl, (key i).1 ?_⟩
      rw [List.mem_map] at hi ⊢
      obtain ⟨k, hk, rfl⟩ := hi
      rw [IndexOps.mem_union1d] at hk
      refine ⟨k, ?_, rfl⟩
      rw [hrem, c.dict] at hk
      simpa using hk)
    (fun i _ => Iff.rfl)
  rw [hself] at he
  simp only
  rw [he]
  refine ⟨setRoot_wf w1 c1.root c1.lt (w1.dict r c1.lt c1.root) (w1.bound r c1.lt c1.root)
    (w1.single r c1.lt c1.root) (fun hl => .inr (hM hl)), ?_⟩
  have e2 : Eff h1 (h1.setRoot r (h1.dicts (h1.iop r).1) M) r _ := setRoot_eff hmem
  refine ⟨e1.same.trans e2.same, fun e he => ?_, fun u j => ?_⟩
  · rw [e2.other e (by rw [e1.same.iop]; exact he), e1.other e he]
  · rw [← e2.mem u j, e1.same.iop]

/-! ### Reading the result -/

/-- Element `k` of `y` is an element of the target `x`. -/
def Hits (h : Heap T) (x : Target) (y : Id) (k : Nat) : Prop :=
  ∃ m, At h.toGraph x.obj y m ∧ m + k ∈ x.index h

theorem Ctx.hits_iff {h : Heap T} (w : WF h) {x : Target} {r o : Nat} (c : Ctx h x r o)
    {y k n : Nat} (hy : At h.toGraph r y n) (hl : h.leaf y = true) (hk : k < h.size y) :
    Covers h x o (k + n) ↔ Hits h x y k := by
  unfold Covers Hits
  rw [List.mem_map]
  constructor
  · rintro ⟨i, hi, he⟩
    have hib := c.bound i hi
    have hanc : Anc h.toGraph x.obj y := by
      by_contra hna
      by_cases h2 : Anc h.toGraph y x.obj
      · cases h2 with
        | refl => exact hna .refl
        | step h3 h4 =>
          obtain ⟨e, A, B, hk', _⟩ := Ins.child_above w.skel (h3.step h4) (by
            rintro rfl; exact hna .refl)
          rw [w.skel.leaf y hl] at hk'
          simp at hk'
      · have := c.pos.disjoint w.skel w.sized hy hna h2
        have e1 : h.toGraph.size x.obj = h.size x.obj := rfl
        have e2 : h.toGraph.size y = h.size y := rfl
        omega
    obtain ⟨m, hm, hmn⟩ := w.skel.at_below c.pos hy hanc
    refine ⟨m, hm, ?_⟩
    convert hi using 1; omega
  · rintro ⟨m, hm, hi⟩
    refine ⟨m + k, hi, ?_⟩
    have := w.skel.at_unique hy (c.pos.trans hm)
    omega

/-- Constraints of a `Param` after an operation on target `x`. -/
theorem Eff.read {h h' : Heap T} (w : WF h) (w' : WF h') {x : Target} {r o : Nat} (c : Ctx h x r o)
    {R : Con T → Nat → Prop} (e : Eff h h' r R) {y : Id} (hy : y < h.next) (u : Con T) (k : Nat) :
    (∀ n, At h.toGraph r y n → (k ∈ h'.constraints y u ↔ k < h.size y ∧ R u (k + n))) ∧
    (¬ Anc h.toGraph r y → h'.constraints y u = h.constraints y u) := by
  have hp : h'.parent = h.parent := by rw [e.same.graph]
  have hn : h'.next = h.next := by rw [e.same.graph]
  have hs : h'.size = h.size := by rw [e.same.graph]
  constructor
  · intro n hn'
    rw [w'.mem_constraints (r := r) (by rw [hn]; exact c.lt) (by rw [hp]; exact c.root)
      (by rw [e.same.graph]; exact hn'), hs, e.same.iop, e.mem]
  · intro hna
    obtain ⟨q, hq, hqa⟩ := w.skel.exists_root y
    have hqlt := w.skel.anc_lt hqa hy
    obtain ⟨n, hqn⟩ := w.skel.exists_at hqa
    have hne : q ≠ r := by rintro rfl; exact hna hqa
    have hd : (h.iop y).1 ≠ (h.iop r).1 := by
      have : (h.iop y).1 = (h.iop q).1 := by
        by_cases hyq : y = q
        · rw [hyq]
        · rw [w.view q y n hqlt hq hqn hyq]
      rw [this]
      exact fun he => hne (w.inj q r hqlt c.lt hq c.root he)
    unfold constraints
    rw [e.same.iop, e.other _ hd]

theorem Hits.anc {h : Heap T} (w : WF h) {x : Target} {y k : Nat} (hh : Hits h x y k) :
    Anc h.toGraph x.obj y := by
  obtain ⟨m, hm, _⟩ := hh
  exact hm.anc w.skel

/-- General reading lemma for leaves: the effect of an operation expressed per element. -/
theorem Eff.leaf {h h' : Heap T} (w : WF h) (w' : WF h') {x : Target} {r o : Nat} (c : Ctx h x r o)
    {R : Con T → Nat → Prop} (e : Eff h h' r R) {f : Con T → Prop → Prop → Prop}
    (hR : ∀ u j, R u j ↔ f u (j ∈ lookup (h.dicts (h.iop r).1) u) (Covers h x o j))
    (hf : ∀ u p, f u p False ↔ p)
    {y : Id} (hy : y < h.next) (hl : h.leaf y = true) (u : Con T) (k : Nat) (hk : k < h.size y) :
    k ∈ h'.constraints y u ↔ f u (k ∈ h.constraints y u) (Hits h x y k) := by
  by_cases hra : Anc h.toGraph r y
  · obtain ⟨n, hn⟩ := w.skel.exists_at hra
    rw [(e.read w w' c hy u k).1 n hn, hR, c.hits_iff w hn hl hk, w.mem_constraints c.lt c.root hn]
    simp [hk]
  · rw [(e.read w w' c hy u k).2 hra]
    have : ¬ Hits h x y k := fun hh => hra ((c.pos.anc w.skel).trans (hh.anc w))
    rw [show Hits h x y k = False from propext ⟨this, False.elim⟩, hf]

end Heap

end Paramz.Hier
