import Verif.Mem.Kept

/-!
# C87: a part of a parameter that is kept in a variable

Vocabulary: `s.part p sel` is `p[…]` as obtained in state `s`, for the slice that selects the positions `sel`.
`Since spoil p s s'`: from `s` to `s'` any calls are made that do not change the hierarchy `p` is in.
`s'.mem.read p i`, `s'.mem.write p i v`: element `i` through `p` itself. `k.run h ⟨p, some sel⟩`: the constraining call
`k` on `p[…]` obtained anew.
-/

set_option linter.unusedSectionVars false

namespace Paramz.Memory

open Hier (Id Graph Heap upd upd_same upd_ne Con Err)
open Hier.Heap (Call Target UpToMask)
open Hier.Graph (Skel Sized At Anc Ins)
open IndexOps (Arr Dict Iop lookup)

namespace Kept

variable {V T : Type} [DecidableEq T]

theorem ensureFixes_length (h : Heap T) (r : Id) : (h.ensureFixes r).length = h.size r := by
  have key : ∀ n F, (Heap.maskOf n F).length = n := by intro n F; simp [Heap.maskOf]
  unfold Heap.ensureFixes
  dsimp only
  cases h.fixes r with
  | none => dsimp only; split <;> exact key _ _
  | some m =>
    dsimp only
    split
    · split <;> exact key _ _
    · rename_i hm; exact not_not.mp hm

/-- A part that is up to date finds the mask entries of its own elements. -/
theorem mask_eq {h : Heap T} {q : Kept} (sk : Skel h.toGraph) (z : Sized h.toGraph)
    (hp : q.parent = h.parent q.obj) (hi : q.parent ≠ none → q.pidx = h.pidx q.obj) {index : Arr}
    (hx : ∀ i ∈ index, i < h.size q.obj) (b : Bool) :
    q.mask h index b = (h.setRootMask q.target index b, none) := by
  unfold mask
  cases hP : q.parent with
  | none =>
    dsimp only
    rw [hP] at hp
    unfold Heap.setRootMask
    rw [if_pos ⟨by simp [target], hp.symm⟩]
  | some P =>
    dsimp only
    have hpar : h.parent q.obj = some P := by rw [← hp, hP]
    have hidx := hi (by rw [hP]; simp)
    have hget : (h.kids P)[q.pidx]? = some q.obj := by rw [hidx]; exact sk.get_pidx hpar
    have hhigh : h.toGraph.highest q.obj = h.toGraph.highest P := State.highest_of_anc sk (Anc.of_parent hpar)
    obtain ⟨hr, hra⟩ := sk.highest_spec q.obj
    rw [hhigh] at hr hra
    obtain ⟨o, ho⟩ := sk.exists_at hra
    have hne : q.obj ≠ h.toGraph.highest P := by
      intro he
      rw [← he] at hr
      rw [show h.toGraph.parent q.obj = some P from hpar] at hr
      cases hr
    have hoff := sk.offsetFor_eq ho hne
    have hwin := ho.window sk z
    rw [hget]
    dsimp only
    rw [if_pos]
    · unfold Heap.setRootMask
      rw [if_neg (by intro hc; rw [show h.parent q.target.obj = some P from hpar] at hc; cases hc.2)]
      rw [show h.toGraph.highest q.target.obj = h.toGraph.highest P from hhigh]
      rfl
    · intro i hi'
      rw [ensureFixes_length, hoff]
      have := hx i hi'
      have e1 : h.toGraph.size q.obj = h.size q.obj := rfl
      have e2 : h.toGraph.size (h.toGraph.highest P) = h.size (h.toGraph.highest P) := rfl
      omega

theorem removed_sub {v : Iop} {d : Dict (Con T)} (hd : IndexOps.WF d) {t : Con T} {ind : Arr} {i : Nat}
    (hi : i ∈ (v.remove d t ind).2) : i ∈ ind := by
  have := (Heap.mem_removed v hd t ind (i + v.offset)).1 (List.mem_map.mpr ⟨i, hi, rfl⟩)
  obtain ⟨j, hj, he⟩ := List.mem_map.mp this
  have : j = i := by omega
  exact this ▸ hj

/-- What makes a part up to date as far as constraints go. -/
structure Fresh (q : Kept) (h : Heap T) : Prop where
  ok : q.target.OK h
  parent : q.parent = h.parent q.obj
  pidx : q.parent ≠ none → q.pidx = h.pidx q.obj

theorem Fresh.same {q : Kept} {h h' : Heap T} (f : Fresh q h) (e : Heap.Same h h') : Fresh q h' := by
  have hg := e.graph
  have e1 : h'.next = h.next := congrArg Graph.next hg
  have e2 : h'.leaf = h.leaf := congrArg Graph.leaf hg
  have e3 : h'.size = h.size := congrArg Graph.size hg
  have e4 : h'.parent = h.parent := congrArg Graph.parent hg
  have e5 : h'.pidx = h.pidx := congrArg Graph.pidx hg
  exact ⟨⟨by rw [e1]; exact f.ok.lt, fun a ha => by rw [e2, e3]; exact f.ok.part a ha⟩, by rw [e4]; exact f.parent,
    fun hn => by rw [e5]; exact f.pidx hn⟩

theorem Fresh.bound {q : Kept} {h : Heap T} (f : Fresh q h) {i : Nat} (hi : i ∈ q.sel) : i < h.size q.obj :=
  (f.ok.part q.sel rfl).2 i hi

theorem dict_wf {q : Kept} {h : Heap T} (w : h.WF) (f : Fresh q h) : IndexOps.WF (h.dicts (h.iop q.obj).1) := by
  obtain ⟨r, o, c⟩ := f.ok.exists_ctx w
  rw [show (h.iop q.obj).1 = (h.iop r).1 from c.dict]
  exact w.dict r c.lt c.root

theorem unconstrainOne_eq {q : Kept} {h : Heap T} (w : h.WF) (f : Fresh q h) (t : Con T) :
    q.unconstrainOne h t = (h.unconstrainOne q.target t, none) := by
  unfold unconstrainOne Heap.unconstrainOne
  dsimp only
  by_cases ht : t = .fixed
  · rw [if_pos ht, if_pos ht]
    let D := ((h.iop q.obj).2.remove (h.dicts (h.iop q.obj).1) t q.sel).1
    refine mask_eq (h := { h with dicts := upd h.dicts (h.iop q.obj).1 D }) w.skel w.sized f.parent f.pidx (fun i hi => ?_) true
    exact f.bound (removed_sub (dict_wf w f) hi)
  · rw [if_neg ht, if_neg ht]
    rfl

theorem unconstrainAll_eq {q : Kept} : ∀ (ts : List (Con T)) {h : Heap T}, h.WF → Fresh q h →
    q.unconstrainAll ts h = (ts.foldl (fun h t => h.unconstrainOne q.target t) h, none)
  | [], _, _, _ => rfl
  | t :: ts, h, w, f => by
    obtain ⟨r, o, c⟩ := f.ok.exists_ctx w
    obtain ⟨w', e⟩ := Heap.unconstrainOne_spec w c t
    unfold unconstrainAll
    rw [unconstrainOne_eq w f t]
    exact unconstrainAll_eq ts w' (f.same e.same)

theorem unconstrain_eq {q : Kept} {h : Heap T} (w : h.WF) (f : Fresh q h) (ts : List (Con T)) :
    q.unconstrain h ts = (h.unconstrain q.target ts, none) := unconstrainAll_eq _ w f

theorem run_eq {q : Kept} {h : Heap T} (w : h.WF) (f : Fresh q h) (k : Call T) :
    q.run h k = (k.run h q.target, none) := by
  cases k with
  | constrain t => simp only [run]; rw [unconstrain_eq w f []]; rfl
  | unconstrain ts => exact unconstrain_eq w f ts
  | fix =>
    simp only [run]
    exact mask_eq (h := q.addCon h .fixed) w.skel w.sized f.parent f.pidx (fun i hi => f.bound hi) false
  | unfix =>
    simp only [run]
    rw [unconstrain_eq w f [.fixed]]
    have w' := (Heap.constraining_wf w f.ok).2.1 [.fixed]
    have f' := f.same w'.2
    refine mask_eq w'.1.skel w'.1.sized f'.parent f'.pidx (fun i hi => ?_) true
    rw [IndexOps.mem_union1d] at hi
    rcases hi with hi | hi
    · cases hi
    · exact f'.bound (removed_sub (dict_wf w f) hi)

/-! Without any of this: whichever mask entries are set, the constraints are those of a fresh part. -/

theorem mask_upTo (q : Kept) (h : Heap T) (index : Arr) (b : Bool) : UpToMask h (q.mask h index b).1 := by
  unfold mask
  cases q.parent with
  | none => exact .refl h
  | some P =>
    dsimp only
    cases (h.kids P)[q.pidx]? with
    | none => exact ⟨_, rfl⟩
    | some x =>
      dsimp only
      split <;> exact ⟨_, rfl⟩

theorem unconstrainOne_upTo (q : Kept) (h : Heap T) (t : Con T) :
    UpToMask (h.dropOne q.target t) (q.unconstrainOne h t).1 := by
  unfold unconstrainOne
  dsimp only
  split
  · exact q.mask_upTo _ _ _
  · exact .refl _

theorem unconstrainAll_upTo (q : Kept) : ∀ (ts : List (Con T)) {h h' : Heap T}, UpToMask h h' →
    (q.unconstrainAll ts h').2 = none →
    UpToMask (ts.foldl (fun h t => h.dropOne q.target t) h) (q.unconstrainAll ts h').1
  | [], _, _, e, _ => e
  | t :: ts, h, h', e, hn => by
    have hu := q.unconstrainOne_upTo h' t
    unfold unconstrainAll at hn ⊢
    cases hr : q.unconstrainOne h' t with
    | mk h1 x =>
      rw [hr] at hn hu
      cases x with
      | some x => cases hn
      | none => exact unconstrainAll_upTo q ts ((Heap.dropOne_congr e q.target t).trans hu) hn

theorem unconstrain_upTo (q : Kept) (h : Heap T) (ts : List (Con T)) (hn : (q.unconstrain h ts).2 = none) :
    UpToMask (h.unconstrain q.target ts) (q.unconstrain h ts).1 :=
  (Heap.fold_upTo q.target _ (.refl h)).symm.trans (unconstrainAll_upTo q _ (.refl h) hn)

theorem run_upTo (q : Kept) (h : Heap T) (k : Call T) (hn : (q.run h k).2 = none) :
    UpToMask (k.run h q.target) (q.run h k).1 := by
  cases k with
  | constrain t =>
    simp only [run] at hn ⊢
    have hu := q.unconstrain_upTo h []
    cases hr : q.unconstrain h [] with
    | mk h1 x =>
      rw [hr] at hn hu
      cases x with
      | some x => cases hn
      | none => exact Heap.addCon_upTo (hu rfl) q.target (.tr t)
  | unconstrain ts => exact q.unconstrain_upTo h ts hn
  | fix => exact (Heap.setRootMask_upTo _ _ _ _).symm.trans (q.mask_upTo (q.addCon h .fixed) _ _)
  | unfix =>
    simp only [run] at hn ⊢
    have hu := q.unconstrain_upTo h [.fixed]
    cases hr : q.unconstrain h [.fixed] with
    | mk h1 x =>
      rw [hr] at hn hu
      cases x with
      | some x => cases hn
      | none => exact (Heap.setRootMask_upTo _ _ _ _).symm.trans ((hu rfl).trans (q.mask_upTo _ _ _))

end Kept

namespace State

variable {V T : Type} [DecidableEq T] {spoil : Nat → Nat → V}

/-- **C87.** As long as the hierarchy of `p` is not changed, element `k` of the part that was kept is the element of `p`
that it was taken for, to read and to write. Missing: calls that link, unlink or initialise in that hierarchy, after
which the claim is false (`kept_part_stale_fails`). -/
theorem kept_part_values_partial {s s' : State V T} (h : Reach spoil s) {p : Id} {sel : Arr} (hp : p < s.heap.next)
    (hl : s.heap.leaf p = true) (hs : Since spoil p s s') {k i : Nat} (hk : sel[k]? = some i) (hi : i < s.heap.size p) :
    (s.part p sel).read s'.mem k = some (s'.mem.read p i) ∧
    ∀ v, (s.part p sel).write s'.mem k v = s'.mem.write p i v := by
  obtain ⟨-, st⟩ := hs.stays h hp hl
  have ha := st.place (by omega)
  have hv : s'.mem.view p = s.mem.view p := by unfold Mem.view; rw [ha]
  constructor
  · unfold Kept.read part Mem.read
    dsimp only
    rw [hk, hv]; rfl
  · intro v
    unfold Kept.write part Mem.write
    dsimp only
    rw [hk, hv]

/-- **C87.** As long as the hierarchy of `p` is not changed, constraining, unconstraining, fixing and unfixing the part
that was kept is what it is for the part obtained anew, and raises nothing. Missing: as above
(`kept_part_fix_fails`). -/
theorem kept_part_calls_partial {s s' : State V T} (h : Reach spoil s) {p : Id} {sel : Arr} (hp : p < s.heap.next)
    (hl : s.heap.leaf p = true) (hsel : ∀ i ∈ sel, i < s.heap.size p) (hs : Since spoil p s s') (k : Call T) :
    (s.part p sel).run s'.heap k = (k.run s'.heap ⟨p, some sel⟩, none) := by
  obtain ⟨h', st⟩ := hs.stays h hp hl
  refine Kept.run_eq (q := s.part p sel) h'.heap.wf ⟨⟨Nat.lt_of_lt_of_le hp st.next, ?_⟩, st.parent.symm, ?_⟩ k
  · intro a ha
    obtain rfl : sel = a := Option.some.inj ha
    exact ⟨st.leaf.trans hl, fun i hi => lt_of_lt_of_eq (hsel i hi) st.size.symm⟩
  · intro hn
    have hn : s.heap.parent p ≠ none := hn
    obtain ⟨P, hP⟩ := Option.ne_none_iff_exists'.mp hn
    exact (st.pidx h.heap.wf.skel h'.heap.wf.skel hP).symm

/-- **C87.** Whatever has happened in between, in any hierarchy: a constraining call on a part kept that raises nothing
leaves every object with the constraints that the call on the part obtained anew leaves it with. -/
theorem kept_part_constraints (q : Kept) (h : Heap T) (k : Call T) (hn : (q.run h k).2 = none) (y : Id) (t : Con T) :
    (q.run h k).1.constraints y t = (k.run h ⟨q.obj, some q.sel⟩).constraints y t := by
  obtain ⟨F, hF⟩ := q.run_upTo h k hn
  rw [hF]; rfl

/-- **C87.** In general, too: once an object with elements has been linked into the initialised hierarchy of `p`, nothing
written through a part taken before is seen in `p` or in anything else of that hierarchy. -/
theorem kept_part_detached {s : State V T} (h : Reach spoil s) {p n x y : Id} {index : Option Int} (sel : Arr)
    (hp : p < s.heap.next) (hl : s.heap.leaf p = true) (hsz : 0 < s.heap.size p)
    (hin : s.heap.toGraph.highest n = s.heap.toGraph.highest p) (hd : Done s.heap (s.heap.toGraph.highest p))
    (hn : s.heap.inInit n = false) (hln : s.heap.leaf n = false) (ok : s.heap.LinkOK n x index)
    (hx : s.heap.parent x = none) (hxs : 0 < s.heap.size x) {s' : State V T}
    (hs' : s' = (s.exec spoil (.heap (.link n x index))).1)
    (hy : s'.heap.toGraph.highest y = s'.heap.toGraph.highest p) (hys : 0 < s'.heap.size y)
    (k : Nat) (v : V) (j : Nat) :
    ((s.part p sel).write s'.mem k v).read y j = s'.mem.read y j := by
  have w := h.heap.wf
  have sk := w.skel
  have l := h.linked
  have hnk : x ∉ s.heap.kids n := by
    intro hc
    rw [sk.mem_iff] at hc
    rw [show s.heap.toGraph.parent x = none from hx] at hc
    cases hc
  have he : s' = (s.linkRoot spoil n x index).1 := by
    rw [hs']
    show (s.link spoil n x index).1 = _
    unfold link
    rw [hln]
    simp only [Bool.false_eq_true, if_false]
    rw [if_neg hnk]
    unfold linkNew
    rw [hx]
  obtain ⟨w1, i, -⟩ := Heap.linkRoot_wf w ok.ltx ok.ltp hx hln ok.outside ok.ready (ok.pos w hx)
  obtain ⟨m1, -⟩ := linkRoot_mem spoil w ok hln hx
  have hm := m1 ⟨hn, by rw [hin]; exact hd.2⟩
  have hh := (linkRoot_heap spoil s n x index).1
  have hg : s'.heap.toGraph = (s.heap.linkRoot n x index).1.toGraph := by rw [he, hh]
  set r := s.heap.toGraph.highest p with hrdef
  have hr : s.heap.parent r = none := (sk.highest_spec p).1
  have hrp : Anc s.heap.toGraph r p := (sk.highest_spec p).2
  have hrn : Anc s.heap.toGraph r n := by have := (sk.highest_spec n).2; rw [hin] at this; exact this
  have hrlt : r < s.heap.next := sk.anc_lt hrp hp
  have hrx : r ≠ x := by rintro rfl; exact ok.outside hrn
  set g' := (s.heap.linkRoot n x index).1.toGraph with hg'
  have sk' : Skel g' := w1.skel
  have hr' : g'.parent r = none := (i.parent_ne r hrx).trans hr
  have hrp' : Anc g' r p := i.anc_mono hrp
  have hyr : Anc g' r y := by
    rw [hg, sk'.highest_eq hr' hrp'] at hy
    rw [← hy]; exact (sk'.highest_spec y).2
  obtain ⟨kp, hkp⟩ := sk.exists_at hrp
  have hwp := hkp.window sk w.sized
  obtain ⟨b, o, hc⟩ := l.calm r hrlt hd
  have e1 : s.heap.toGraph.size p = s.heap.size p := rfl
  have e2 : s.heap.toGraph.size x = s.heap.size x := rfl
  obtain ⟨c1, -⟩ := hc r 0 .refl (by omega)
  obtain ⟨c2, -⟩ := hc p kp hkp hsz
  have hkr : g'.kids r ≠ [] := by
    intro hk
    by_cases hrn' : r = n
    · subst hrn'
      rw [i.kids_p'] at hk
      simp at hk
    · obtain ⟨e, A', B', hk', -⟩ := Ins.child_above sk hrn hrn'
      rw [i.kids_ne r hrn', hk'] at hk
      simp at hk
  have hlo : LeafOwn g' s.mem := leafOwn_of_leaf i.leaf l.lo
  obtain ⟨w', h1, h2, -, -, -, h3⟩ := Mem.connect_places sk' w1.sized spoil hlo hkr
  have hbuf : s.mem.next ≤ w'.buf := by
    rcases h3 with ⟨h3, -⟩ | ⟨-, h3, -⟩
    · exfalso
      have q1 := h3.2
      have q2 : w' = ⟨b, o + 0, s.heap.toGraph.size r⟩ := Option.some.inj (h3.1.symm.trans c1)
      rw [q2, i.size_anc r hrn] at q1
      simp only at q1
      omega
    · exact h3
  have hq : (s.mem.view p).buf < s.mem.next := by
    rw [Mem.view_eq c2]
    exact h.bounded p _ c2
  have hmem : s'.mem = s.mem.connect spoil g' r := by rw [he, hm, hin]
  have hyb : (s'.mem.view y).buf = w'.buf := by
    by_cases hyr' : y = r
    · subst hyr'; rw [hmem, Mem.view_eq h1.1]
    · obtain ⟨ky, hky⟩ := sk'.exists_at hyr
      rw [hmem, Mem.view_eq (h2 y ky hky hyr').1]
  unfold Kept.write
  cases (s.part p sel).sel[k]? with
  | none => rfl
  | some i =>
    dsimp only
    unfold Mem.read
    dsimp only
    rw [if_neg]
    · rfl
    · rintro ⟨h4, -⟩
      have h4 : (s'.mem.view y).buf = (s.mem.view p).buf := h4
      omega

/-! ### The hypotheses are met, and what goes wrong otherwise -/

/-- `p[1:3]` of the `Param` `3` of `demo`. -/
def keptPart : Kept := demo.part 3 [1, 2]

/-- In between: elements are written through the root, `3` and its sibling are constrained and fixed, another model is
made, and `demo` is initialised once more. -/
def keptCalls : List (Ev Nat Nat) :=
  [.write 0 4 8, .heap (.constrain ⟨3, none⟩ (.tr 7)), .heap (.fix ⟨4, none⟩), .heap .newNode, .heap (.newParam 2),
   .heap (.link 6 7 none), .heap (.finishInit 6 true), .heap (.init 3), .heap (.unlink 6 7)]

def elsewhereB (s : State V T) (y : Id) : Ev V T → Bool
  | .heap (.finishInit x _) => decide (s.heap.toGraph.highest x ≠ s.heap.toGraph.highest y) ||
    (!s.heap.inInit (s.heap.toGraph.highest y) && decide (s.heap.inited (s.heap.toGraph.highest y) = some true))
  | .heap (.init x) => decide (s.heap.toGraph.highest x ≠ s.heap.toGraph.highest y) ||
    (!s.heap.inInit (s.heap.toGraph.highest y) && decide (s.heap.inited (s.heap.toGraph.highest y) = some true))
  | .heap (.link p x _) => decide (s.heap.toGraph.highest p ≠ s.heap.toGraph.highest y) &&
    decide (s.heap.toGraph.highest x ≠ s.heap.toGraph.highest y)
  | .heap (.unlink p _) => decide (s.heap.toGraph.highest p ≠ s.heap.toGraph.highest y)
  | _ => true

theorem elsewhereB_sound {s : State V T} {y : Id} {e : Ev V T} (hb : s.elsewhereB y e = true) : s.Elsewhere y e := by
  cases e with
  | write => trivial
  | heap e =>
    cases e with
    | finishInit x i =>
      simp only [elsewhereB, Bool.or_eq_true, Bool.and_eq_true, decide_eq_true_eq, Bool.not_eq_true'] at hb
      exact hb
    | init x =>
      simp only [elsewhereB, Bool.or_eq_true, Bool.and_eq_true, decide_eq_true_eq, Bool.not_eq_true'] at hb
      exact hb
    | link p x i =>
      simp only [elsewhereB, Bool.and_eq_true, decide_eq_true_eq] at hb
      exact hb
    | unlink p x =>
      simp only [elsewhereB, decide_eq_true_eq] at hb
      exact hb
    | _ => trivial

def sinceB (spoil : Nat → Nat → V) (y : Id) (s : State V T) : List (Ev V T) → Bool
  | [] => true
  | e :: es => s.admissibleB e && s.elsewhereB y e && sinceB spoil y (s.exec spoil e).1 es

theorem Since.run {s s1 : State V T} {y : Id} (hr : Reach spoil s1) (h : Since spoil y s s1) :
    ∀ es, s1.sinceB spoil y es = true → Since spoil y s (s1.run spoil es)
  | [], _ => h
  | e :: es, hb => by
    simp only [sinceB, Bool.and_eq_true] at hb
    have ha := admissibleB_sound hr.heap.wf hb.1.1
    exact Since.run (s1 := (s1.exec spoil e).1) (.step hr ha) (.step h ha (elsewhereB_sound hb.1.2)) es hb.2

theorem keptCalls_since : Since demoSpoil 3 demo (demo.run demoSpoil keptCalls) :=
  Since.run demo_reach .refl _ (by decide +kernel)

example (v : Nat) : keptPart.write (demo.run demoSpoil keptCalls).mem 1 v = (demo.run demoSpoil keptCalls).mem.write 3 2 v :=
  (kept_part_values_partial demo_reach (by decide +kernel) (by decide +kernel) keptCalls_since rfl (by decide +kernel)).2 v

/-- The write of `8` to the root is read through the part. -/
example : [0, 1].map (keptPart.read (demo.run demoSpoil keptCalls).mem) = [some 31, some 8] := by decide +kernel

/-- Fixing the part fixes elements 3 and 4 of the model, next to element 5, which was fixed before. -/
example : (keptPart.run (demo.run demoSpoil keptCalls).heap .fix).1.fixes 0 =
    some [true, true, true, false, false, false, true, true] := by
  have := kept_part_calls_partial (sel := [1, 2]) demo_reach (by decide +kernel) (by decide +kernel) (by decide +kernel)
    keptCalls_since .fix
  unfold keptPart
  rw [this]
  decide +kernel

/-- `5` is fixed, and there is a new `Param` with one element. -/
def keptBefore : State Nat Nat := run demoSpoil demo [.heap (.newParam 1), .write 6 0 60, .heap (.fix ⟨5, none⟩)]

theorem keptBefore_reach : Reach demoSpoil keptBefore := Reach.run demo_reach _ (by decide +kernel)

/-- It is linked before `3`. -/
def keptMoved : State Nat Nat := (keptBefore.exec demoSpoil (.heap (.link 2 6 (some 0)))).1

theorem keptMoved_admissible : keptBefore.Admissible (.heap (.link 2 6 (some 0))) :=
  admissibleB_sound keptBefore_reach.heap.wf (by decide +kernel)

theorem keptMoved_reach : Reach demoSpoil keptMoved := .step keptBefore_reach keptMoved_admissible

/-- After linking something into the model, a part taken before is no longer a part: what is written through it is not
seen in the parameter or in the model, and what is written to the parameter is not seen through it. -/
theorem kept_part_stale_fails : Reach demoSpoil demo ∧ Reach demoSpoil keptMoved ∧ keptMoved.values 3 = [30, 31, 32] ∧
    (State.mk (T := Nat) keptMoved.heap (keptPart.write keptMoved.mem 0 5)).values 0 = keptMoved.values 0 ∧
    keptPart.read (keptMoved.mem.write 3 1 5) 0 = some 31 ∧ (keptMoved.mem.write 3 1 5).read 3 1 = 5 := by
  refine ⟨demo_reach, keptMoved_reach, ?_, ?_, ?_, ?_⟩ <;> decide +kernel

example (v : Nat) (j : Nat) : ((keptBefore.part 3 [1, 2]).write keptMoved.mem 0 v).read 3 j = keptMoved.mem.read 3 j :=
  kept_part_detached (s := keptBefore) (s' := keptMoved) keptBefore_reach (p := 3) (n := 2) (x := 6) (y := 3)
    (index := some 0) [1, 2] (by decide +kernel) (by decide +kernel) (by decide +kernel) (by decide +kernel)
    ⟨by decide +kernel, by decide +kernel⟩ (by decide +kernel) (by decide +kernel) keptMoved_admissible
    (by decide +kernel) (by decide +kernel) (by unfold keptMoved; rfl) (by generalize keptMoved = s; rfl)
    (by decide +kernel) 0 v j

/-- The memory it uses belongs to no array of the model any more: the library holds no reference to it. -/
theorem kept_part_memory_fails : (List.range keptMoved.heap.next).all (fun y =>
    decide ((keptMoved.mem.view y).buf ≠ keptPart.buf)) = true := by decide +kernel

/-- Fixing through it adds the constraint to the right elements (3[1] and 3[2], elements 4 and 5 of the model) and sets the
mask of the wrong ones (3 and 4): the optimiser moves 3[2] although it is fixed, and leaves 3[0] where it is. -/
theorem kept_part_fix_fails : Reach demoSpoil keptMoved ∧
    (keptPart.run keptMoved.heap .fix).2 = none ∧
    (keptPart.run keptMoved.heap .fix).1.constraints 0 .fixed = [4, 5, 7, 8] ∧
    (keptPart.run keptMoved.heap .fix).1.fixes 0 =
      some [true, true, true, false, false, true, true, false, false] ∧
    (keptMoved.heap.fix ⟨3, some [1, 2]⟩).fixes 0 =
      some [true, true, true, true, false, false, true, false, false] := by
  refine ⟨keptMoved_reach, ?_, ?_, ?_, ?_⟩ <;> decide +kernel

/-- `p[0:1]` taken before `p` is linked. -/
def keptOrphan : State Nat Nat := run demoSpoil start [.heap .newNode, .heap (.newParam 2)]

def keptOrphanLinked : State Nat Nat := run demoSpoil keptOrphan [.heap (.link 0 1 none), .heap (.finishInit 0 true)]

/-- A part taken before the parameter was linked does not reach the mask of the model at all: the element counts as fixed
and is optimised. -/
theorem kept_part_orphan_fails : Reach demoSpoil keptOrphanLinked ∧
    ((keptOrphan.part 1 [0]).run keptOrphanLinked.heap .fix).2 = none ∧
    ((keptOrphan.part 1 [0]).run keptOrphanLinked.heap .fix).1.constraints 0 .fixed = [0] ∧
    ((keptOrphan.part 1 [0]).run keptOrphanLinked.heap .fix).1.fixes 0 = none := by
  have h1 : Reach demoSpoil keptOrphan := Reach.run (.empty _) _ (by decide +kernel)
  refine ⟨Reach.run h1 _ (by decide +kernel), ?_, ?_, ?_⟩ <;> decide +kernel

/-- `5[0:2]` is taken, a child before `5` is unlinked, and the position noted is beyond the list. -/
theorem kept_part_index_fails : ∃ s : State Nat Nat, Reach demoSpoil s ∧ s.heap.kids 0 = [2, 5] ∧
    ((demo.part 5 [0, 1]).run s.heap .fix).2 = some .indexError ∧
    (demo.part 5 [0, 1]).parent = some 0 ∧ s.heap.parent 5 = some 0 :=
  ⟨run demoSpoil demo [.heap (.unlink 0 1)], Reach.run demo_reach _ (by decide +kernel), by decide +kernel,
    by decide +kernel, by decide +kernel, by decide +kernel⟩

example : (keptPart.run keptMoved.heap (.constrain 7)).2 = none ∧
    (keptPart.run keptMoved.heap (.constrain 7)).1.constraints 3 (.tr 7) = [1, 2] := by decide +kernel

end State

end Paramz.Memory
