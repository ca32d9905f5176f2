import Verif.Hier.Ops
import Verif.Hier.TraverseLemmas
import Verif.Hier.CopyLemmas

/-!
# Every history of accepted calls keeps the state well formed
-/

set_option linter.unusedSectionVars false

namespace Paramz.Hier

open IndexOps (Arr Dict Iop lookup)
open Graph (Anc At Skel Sized Ins)

namespace Heap

variable {T : Type} [DecidableEq T]

theorem WF.empty : WF (Heap.empty : Heap T) := by
  constructor
  · exact ⟨fun c p h => (by cases h), fun c p => (by simp [Heap.empty]),
      fun p => (by simp [Heap.empty]), fun p i c h => (by simp [Heap.empty] at h), fun x h => rfl,
      ⟨fun _ => 0, fun c p h => (by cases h)⟩⟩
  · intro x _; rfl
  · exact fun r hr => absurd hr (Nat.not_lt_zero r)
  · exact fun r p hr => absurd hr (Nat.not_lt_zero r)
  · exact fun r y n hr => absurd hr (Nat.not_lt_zero r)
  all_goals exact fun r hr => absurd hr (Nat.not_lt_zero r)

/-! ### New objects -/

theorem newObj_wf {h : Heap T} (w : WF h) (leaf : Bool) (size : Nat) (ii : Bool)
    (hsz : leaf = false → size = 0) : WF (h.newObj leaf size ii) := by
  have hpn : h.parent h.next = none := by
    cases hp : h.parent h.next with
    | none => rfl
    | some p => exact absurd (w.skel.alloc _ _ hp).1 (Nat.lt_irrefl _)
  have hkn : h.kids h.next = [] := by
    apply List.eq_nil_iff_forall_not_mem.mpr
    intro c hc
    exact absurd (w.skel.alloc _ _ ((w.skel.mem_iff _ _).mp hc)).2 (Nat.lt_irrefl _)
  have e1 : (h.newObj leaf size ii).parent = h.parent := by
    funext y
    show upd h.parent h.next none y = _
    by_cases hy : y = h.next
    · subst hy; rw [upd_same, hpn]
    · rw [upd_ne _ _ hy]
  have e2 : (h.newObj leaf size ii).kids = h.kids := by
    funext y
    show upd h.kids h.next [] y = _
    by_cases hy : y = h.next
    · subst hy; rw [upd_same, hkn]
    · rw [upd_ne _ _ hy]
  have e3 : ∀ y, y ≠ h.next → (h.newObj leaf size ii).size y = h.size y := fun y hy => upd_ne _ _ hy
  have e4 : ∀ y, y ≠ h.next → (h.newObj leaf size ii).leaf y = h.leaf y := fun y hy => upd_ne _ _ hy
  have e5 : ∀ y, y ≠ h.next → (h.newObj leaf size ii).iop y = h.iop y := fun y hy => upd_ne _ _ hy
  have e6 : (h.newObj leaf size ii).iop h.next = (h.nextDict, .base) := upd_same _ _ _
  have e7 : (h.newObj leaf size ii).dicts h.nextDict = [] := upd_same _ _ _
  have e8 : ∀ e, e ≠ h.nextDict → (h.newObj leaf size ii).dicts e = h.dicts e :=
    fun y hy => upd_ne _ _ hy
  have e9 : (h.newObj leaf size ii).next = h.next + 1 := rfl
  have e10 : ∀ y, y ≠ h.next → (h.newObj leaf size ii).fixes y = h.fixes y :=
    fun y hy => upd_ne _ _ hy
  have e11 : (h.newObj leaf size ii).fixes h.next = none := upd_same _ _ _
  have hchild : ∀ c p, h.parent c = some p → c ≠ h.next := fun c p hc he => by
    subst he; rw [hpn] at hc; cases hc
  have hdict : ∀ r, r < h.next → h.parent r = none →
      (h.newObj leaf size ii).dicts ((h.newObj leaf size ii).iop r).1 = h.dicts (h.iop r).1 := by
    intro r hr hrp
    rw [e5 r (by omega)]
    have := (w.root r hr hrp).2
    exact e8 _ (by omega)
  have hcases : ∀ r, r < (h.newObj leaf size ii).next → r = h.next ∨ r < h.next := by
    intro r hr; rw [e9] at hr; omega
  constructor
  · constructor
    · intro c p hc
      rw [show (h.newObj leaf size ii).toGraph.parent = h.parent from e1] at hc
      have := w.skel.alloc c p hc
      exact ⟨Nat.lt_succ_of_lt this.1, Nat.lt_succ_of_lt this.2⟩
    · intro c p
      rw [show (h.newObj leaf size ii).toGraph.parent = h.parent from e1,
        show (h.newObj leaf size ii).toGraph.kids = h.kids from e2]
      exact w.skel.mem_iff c p
    · intro p
      rw [show (h.newObj leaf size ii).toGraph.kids = h.kids from e2]
      exact w.skel.nodup p
    · intro p i c hc
      rw [show (h.newObj leaf size ii).toGraph.kids = h.kids from e2] at hc
      exact w.skel.pidx p i c hc
    · intro x hl
      rw [show (h.newObj leaf size ii).toGraph.kids = h.kids from e2]
      by_cases hx : x = h.next
      · subst hx; exact hkn
      · exact w.skel.leaf x (by rw [← e4 x hx]; exact hl)
    · obtain ⟨d, hd⟩ := w.skel.acyclic
      refine ⟨d, fun c p hc => ?_⟩
      rw [show (h.newObj leaf size ii).toGraph.parent = h.parent from e1] at hc
      exact hd c p hc
  · intro x hl
    rw [show (h.newObj leaf size ii).toGraph.kids = h.kids from e2]
    by_cases hx : x = h.next
    · subst hx
      rw [hkn]
      have hl' : leaf = false := by
        have : (h.newObj leaf size ii).leaf h.next = leaf := upd_same _ _ _
        rw [← this]; exact hl
      have : (h.newObj leaf size ii).size h.next = size := upd_same _ _ _
      rw [show (h.newObj leaf size ii).toGraph.size h.next = size from this, hsz hl']
      rfl
    · have hl' : h.leaf x = false := by rw [← e4 x hx]; exact hl
      rw [show (h.newObj leaf size ii).toGraph.size x = h.size x from e3 x hx]
      rw [w.sized x hl']
      unfold Graph.sizeSum
      congr 1
      apply List.map_congr_left
      intro c hc
      exact (e3 c (hchild c x ((w.skel.mem_iff _ _).mp hc))).symm
  · intro r hr hrp
    rw [e1] at hrp
    show _ ∧ _ < h.nextDict + 1
    rcases hcases r hr with rfl | hlt
    · rw [e6]; exact ⟨rfl, by simp⟩
    · rw [e5 r (by omega)]
      have := w.root r hlt hrp
      exact ⟨this.1, by omega⟩
  · intro r r' hr hr' hrp hrp' he
    rw [e1] at hrp hrp'
    rcases hcases r hr with rfl | hlt <;> rcases hcases r' hr' with rfl | hlt'
    · rfl
    · rw [e6, e5 r' (by omega)] at he
      have := (w.root r' hlt' hrp').2
      simp only at he; omega
    · rw [e6, e5 r (by omega)] at he
      have := (w.root r hlt hrp).2
      simp only at he; omega
    · rw [e5 r (by omega), e5 r' (by omega)] at he
      exact w.inj r r' hlt hlt' hrp hrp' he
  · intro r x n hr hrp ha hne
    rw [e1] at hrp
    have hat : At h.toGraph r x n := by
      clear hne
      induction ha with
      | refl => exact .refl
      | @step p c n A B h1 hk ih =>
        have hk' : h.toGraph.kids p = A ++ c :: B := by
          rw [← show (h.newObj leaf size ii).toGraph.kids = h.kids from e2]; exact hk
        have he : (h.newObj leaf size ii).toGraph.sizeSum A = h.toGraph.sizeSum A := by
          unfold Graph.sizeSum
          congr 1
          apply List.map_congr_left
          intro z hz
          exact e3 z (hchild z p ((w.skel.mem_iff _ _).mp (by rw [hk']; simp [hz])))
        rw [he]
        exact .step ih hk'
    have hx : x ≠ h.next := by
      cases hat with
      | refl => exact absurd rfl hne
      | step h1 hk => exact hchild x _ (w.skel.parent_of hk)
    rcases hcases r hr with rfl | hlt
    · exact absurd (w.skel.desc_lt (hat.anc w.skel)) (by
        intro hf
        cases hat with
        | refl => exact hne rfl
        | step h1 hk =>
          have := h1.anc w.skel
          have h2 := (w.skel.alloc _ _ (w.skel.parent_of hk)).2
          exact absurd (w.skel.anc_lt this h2) (Nat.lt_irrefl _))
    · rw [e5 x hx, e5 r (by omega), e3 x hx]
      exact w.view r x n hlt hrp hat hne
  · intro r hr hrp
    rw [e1] at hrp
    rcases hcases r hr with rfl | hlt
    · rw [e6, e7]; exact IndexOps.WF.nil
    · rw [hdict r hlt hrp]; exact w.dict r hlt hrp
  · intro r hr hrp
    rw [e1] at hrp
    rcases hcases r hr with rfl | hlt
    · rw [e6, e7]; intro t i hi; simp [lookup] at hi
    · rw [hdict r hlt hrp, e3 r (by omega)]; exact w.bound r hlt hrp
  · intro r hr hrp
    rw [e1] at hrp
    rcases hcases r hr with rfl | hlt
    · rw [e6, e7]; intro t u i hi; simp [lookup] at hi
    · rw [hdict r hlt hrp]; exact w.single r hlt hrp
  · intro r hr hrp hl
    rw [e1] at hrp
    rcases hcases r hr with rfl | hlt
    · rw [e11]; intro m hm; cases hm
    · rw [hdict r hlt hrp, e3 r (by omega), e10 r (by omega)]
      exact w.mask r hlt hrp (by rw [← e4 r (by omega)]; exact hl)
  · intro r hr hrp hl h1 h2
    rw [e1] at hrp
    rcases hcases r hr with rfl | hlt
    · have : (h.newObj leaf size ii).inited h.next = none := upd_same _ _ _
      rw [this] at h2; cases h2
    · rw [hdict r hlt hrp, e3 r (by omega), e10 r (by omega)]
      have a : (h.newObj leaf size ii).inInit r = h.inInit r := upd_ne _ _ (Nat.ne_of_lt hlt)
      have b : (h.newObj leaf size ii).inited r = h.inited r := upd_ne _ _ (Nat.ne_of_lt hlt)
      exact w.ready r hlt hrp (by rw [← e4 r (by omega)]; exact hl) (by rw [← a]; exact h1)
        (by rw [← b]; exact h2)

/-! ### `initialize_parameter` -/

theorem initialize_eq {h : Heap T} (w : WF h) {x : Id} (hx : x < h.next) :
    ∃ (r : Id) (D : Dict (Con T)) (F : Id → Option (List Bool)) (J : Id → Option Bool),
      r = h.toGraph.highest x ∧ h.parent r = none ∧ r < h.next ∧ Anc h.toGraph r x ∧
      (∀ t, lookup D t = lookup (h.dicts (h.iop r).1) t) ∧ IndexOps.WF D ∧
      (∀ y, ¬ Anc h.toGraph r y → F y = h.fixes y) ∧
      F r = freshMask (h.size r) (lookup (h.dicts (h.iop r).1) .fixed) ∧
      (∀ y, ¬ Anc h.toGraph r y → J y = h.inited y) ∧
      (∀ y, Anc h.toGraph r y → J y = some true) ∧
      h.initializeParameter x = { h with
        dicts := upd h.dicts (h.iop r).1 D, fixes := F, inited := J } := by
  obtain ⟨hr, hra⟩ := w.skel.highest_spec x
  have hrlt := w.skel.anc_lt hra hx
  set r := h.toGraph.highest x with hrdef
  have hbase := (w.root r hrlt hr).1
  have hn : h.notifyParentChange r = { h with
      fixes := fun y => if y ∈ h.toGraph.below r then none else h.fixes y } := by
    rw [notify_eq w.skel]
    unfold setViews
    congr 1
    funext y
    split
    · rename_i hy
      obtain ⟨hne, ha⟩ := w.skel.mem_below.mp hy
      obtain ⟨n, hn⟩ := w.skel.exists_at ha
      rw [w.view r y n hrlt hr hn hne, hbase, w.skel.offsetFor_of_root hr hn]
    · rfl
  set F0 : Id → Option (List Bool) := fun y => if y ∈ h.toGraph.below r then none else h.fixes y
    with hF0
  have s1 : Skel (h.notifyParentChange r).toGraph := by rw [hn]; exact w.skel
  have hc := connect_eq s1 r
  set J : Id → Option Bool := fun y =>
    if y ∈ (h.notifyParentChange r).toGraph.subtree r then some true
    else (h.notifyParentChange r).inited y with hJ
  have h2 : (h.notifyParentChange r).connect r = { h with fixes := F0, inited := J } := by
    rw [hc]
    simp only [hn]
  obtain ⟨D, hD, hDw, he⟩ := connectFixes_eq ({ h with fixes := F0, inited := J } : Heap T) r hbase
  refine ⟨r, D, upd F0 r (freshMask (h.size r) (lookup (h.dicts (h.iop r).1) .fixed)), J, rfl, hr,
    hrlt, hra, hD, hDw (w.dict r hrlt hr), ?_, upd_same _ _ _, ?_, ?_, ?_⟩
  · intro y hy
    have hne : y ≠ r := by rintro rfl; exact hy .refl
    rw [upd_ne _ _ hne]
    simp only [hF0]
    rw [if_neg (fun hm => hy (w.skel.mem_below.mp hm).2)]
  · intro y hy
    simp only [hJ]
    rw [if_neg ?_, hn]
    intro hm
    have := s1.mem_subtree.mp hm
    rw [hn] at this
    exact hy this
  · intro y hy
    simp only [hJ]
    rw [if_pos (s1.mem_subtree.mpr (by rw [hn]; exact hy))]
  · have : h.initializeParameter x = ((h.notifyParentChange r).connect r).connectFixes r := rfl
    rw [this, h2, he]

theorem initialize_wf {h : Heap T} (w : WF h) {x : Id} (hx : x < h.next) :
    WF (h.initializeParameter x) ∧ (h.initializeParameter x).toGraph = h.toGraph ∧
    (h.initializeParameter x).iop = h.iop ∧
    (∀ y, y < h.next → ∀ t, (h.initializeParameter x).constraints y t = h.constraints y t) ∧
    (∀ y, Anc h.toGraph (h.toGraph.highest x) y → (h.initializeParameter x).inited y = some true) := by
  obtain ⟨r, D, F, J, hrd, hr, hrlt, hra, hD, hDw, hF, hFr, hJ, hJr, he⟩ := initialize_eq w hx
  have hmask : ∀ p, h.parent p = none → p ≠ r → F p = h.fixes p ∧ J p = h.inited p := by
    intro p hp hne
    have : ¬ Anc h.toGraph r p := fun ha => hne ((Graph.anc_root hp).mp ha).symm
    exact ⟨hF p this, hJ p this⟩
  have hl : ∀ e t, lookup (upd h.dicts (h.iop r).1 D e) t = lookup (h.dicts e) t := by
    intro e t
    by_cases hee : e = (h.iop r).1
    · subst hee; rw [upd_same]; exact hD t
    · rw [upd_ne _ _ hee]
  have hw : ∀ e, IndexOps.WF (h.dicts e) → IndexOps.WF (upd h.dicts (h.iop r).1 D e) := by
    intro e hwe
    by_cases hee : e = (h.iop r).1
    · subst hee; rw [upd_same]; exact hDw
    · rw [upd_ne _ _ hee]; exact hwe
  have wf' : WF ({ h with dicts := upd h.dicts (h.iop r).1 D, fixes := F, inited := J } : Heap T) := by
    constructor
    · exact w.skel
    · exact w.sized
    · exact w.root
    · exact w.inj
    · exact w.view
    · intro p hp hpn; exact hw _ (w.dict p hp hpn)
    · intro p hp hpn t i hi
      rw [hl] at hi
      exact w.bound p hp hpn t i hi
    · intro p hp hpn t u i h1 h2
      rw [hl] at h1 h2
      exact w.single p hp hpn t u i h1 h2
    · intro p hp hpn hlf m hm
      rw [hl]
      show m.length ≤ h.size p ∧ (m.length = h.size p → _)
      by_cases hne : p = r
      · subst hne
        have hm : F p = some m := hm
        rw [hFr, freshMask] at hm
        split at hm
        · cases hm; exact ⟨by simp [maskOf], fun _ => rfl⟩
        · cases hm
      · have hm : F p = some m := hm
        rw [(hmask p hpn hne).1] at hm
        exact w.mask p hp hpn hlf m hm
    · intro p hp hpn hlf h1 h2
      rw [hl]
      show (F p = none → _) ∧ ∀ m, F p = some m → m.length = h.size p
      by_cases hne : p = r
      · subst hne
        rw [hFr]
        unfold freshMask
        split
        · exact ⟨fun h => (by cases h), fun m hmm => by cases hmm; simp [maskOf]⟩
        · rename_i h6
          exact ⟨fun _ => not_not.mp h6, fun m hmm => (by cases hmm)⟩
      · rw [(hmask p hpn hne).1]
        have h2 : J p = some true := h2
        rw [(hmask p hpn hne).2] at h2
        exact w.ready p hp hpn hlf h1 h2
  rw [he]
  refine ⟨wf', rfl, rfl, ?_, ?_⟩
  · intro y hy t
    apply w.constraints_eq wf' hy hy
    intro i
    obtain ⟨q, hq, hqa⟩ := w.skel.exists_root y
    have hqlt := w.skel.anc_lt hqa hy
    obtain ⟨n, hn⟩ := w.skel.exists_at hqa
    rw [w.mem_constraints hqlt hq hn, wf'.mem_constraints (r := q) (n := n) hqlt hq hn, hl]
  · rw [← hrd]; exact hJr

theorem finishInit_wf {h : Heap T} (w : WF h) {x : Id} (hx : x < h.next) (i : Bool) :
    WF (h.finishInit x i) ∧ (h.finishInit x i).toGraph = h.toGraph ∧
    (∀ y, y < h.next → ∀ t, (h.finishInit x i).constraints y t = h.constraints y t) := by
  have w1 : WF ({ h with inInit := upd h.inInit x false, inited := upd h.inited x (some false) } :
      Heap T) := by
    constructor
    · exact w.skel
    · exact w.sized
    · exact w.root
    · exact w.inj
    · exact w.view
    · exact w.dict
    · exact w.bound
    · exact w.single
    · exact w.mask
    · intro p hp hpn hlf h1 h2
      have h1 : upd h.inInit x false p = false := h1
      have h2 : upd h.inited x (some false) p = some true := h2
      by_cases hne : p = x
      · subst hne; rw [upd_same] at h2; cases h2
      · rw [upd_ne _ _ hne] at h1 h2
        exact w.ready p hp hpn hlf h1 h2
  unfold finishInit
  cases i with
  | false => exact ⟨w1, rfl, fun y hy t => rfl⟩
  | true =>
    obtain ⟨h1, h2, _, h3, _⟩ := initialize_wf w1 (x := x) hx
    exact ⟨h1, h2, h3⟩

/-! ### `link_parameter` -/

/-- A `link_parameter` request that is not a mistake: both exist, the new parent is not inside the
parameter's own hierarchy, a position is not beyond the end of the list, and the new parent is a root or
part of an initialised hierarchy. -/
structure LinkOK (h : Heap T) (p x : Id) (index : Option Int) : Prop where
  ltp : p < h.next
  ltx : x < h.next
  outside : ¬ Anc h.toGraph x p
  ready : h.LinkReady p
  index : ∀ i, index = some i → i ≤ ((h.kids p).filter (· ≠ x)).length

theorem storedIndex_eq {l : List Id} {index : Option Int} (h : ∀ i, index = some i → i ≤ l.length) :
    storedIndex l index = insertPos l index := by
  cases index with
  | none => rfl
  | some i =>
    have := h i rfl
    simp only [storedIndex, insertPos, sliceTo]
    split
    · rw [List.length_take]; omega
    · rfl

theorem WF.visited {h : Heap T} (w : WF h) (v : Id → Bool) : WF ({ h with visited := v } : Heap T) :=
  ⟨w.1, w.2, w.3, w.4, w.5, w.6, w.7, w.8, w.9, w.10⟩

theorem LinkOK.pos {h : Heap T} {p x : Id} {index : Option Int} (ok : LinkOK h p x index) (w : WF h)
    (hpx : h.parent x = none) : storedIndex (h.kids p) index = insertPos (h.kids p) index := by
  apply storedIndex_eq
  intro i hi
  have := ok.index i hi
  have hf : (h.kids p).filter (· ≠ x) = h.kids p := by
    rw [List.filter_eq_self]
    intro c hc
    have hpc := (w.skel.mem_iff _ _).mp hc
    simp only [ne_eq, decide_not, Bool.not_eq_eq_eq_not, Bool.not_true, decide_eq_false_iff_not]
    rintro rfl
    rw [show h.toGraph.parent c = none from hpx] at hpc; cases hpc
  rwa [hf] at this

/-- Linking a root, in terms of all objects that are not above the new parent. -/
theorem linkRoot_ok {h : Heap T} (w : WF h) {p x : Id} {index : Option Int} (ok : LinkOK h p x index)
    (hl : h.leaf p = false) (hpx : h.parent x = none) :
    WF (h.linkRoot p x index).1 ∧
    (h.linkRoot p x index).1.toGraph.next = h.next ∧
    (h.linkRoot p x index).1.toGraph.leaf = h.leaf ∧
    (h.linkRoot p x index).1.toGraph.parent x = some p ∧
    (h.linkRoot p x index).1.kids p =
      (h.kids p).take (insertPos (h.kids p) index) ++ x :: (h.kids p).drop (insertPos (h.kids p) index) ∧
    (∀ y, y < h.next → ¬ Anc h.toGraph y p → ∀ t,
      (h.linkRoot p x index).1.constraints y t = h.constraints y t) := by
  have hpos := ok.pos w hpx
  obtain ⟨h1, h2, h3⟩ := linkRoot_wf w ok.ltx ok.ltp hpx hl ok.outside ok.ready hpos
  exact ⟨h1, h2.next, h2.leaf, h2.parent_x, h2.kids_p', h3⟩

/-- Objects whose constructor has finished carry the flag `_model_initialized_`. -/
def Flagged (h : Heap T) (p : Id) : Prop := h.inInit p = false → h.inited p ≠ none

/-- With a good request, linking a root raises nothing. -/
theorem linkRoot_none {h : Heap T} (w : WF h) {p x : Id} {index : Option Int} (ok : LinkOK h p x index)
    (hl : h.leaf p = false) (hpx : h.parent x = none) (hi : h.Flagged p) :
    (h.linkRoot p x index).2 = none := by
  have hpos := ok.pos w hpx
  obtain ⟨i2, s2, h2eq⟩ := linkPointers_ins w.skel (index := index) ok.ltx ok.ltp hpx hl ok.outside hpos
  have hn3 := notify_eq s2 p
  unfold linkRoot
  simp only [hpos, ne_eq, not_true_eq_false, if_false]
  set h2 := (h.linkPointers p x index).addSizes p (h.size x) with hh2
  have f_ii : (h2.notifyParentChange p).inInit = h.inInit := by rw [hn3, h2eq]; rfl
  have f_id : (h2.notifyParentChange p).inited = h.inited := by rw [hn3, h2eq]; rfl
  have e3 : (h2.notifyParentChange p).toGraph = h2.toGraph := by rw [hn3]; rfl
  rw [f_ii, f_id, e3]
  obtain ⟨hr, hra⟩ := w.skel.highest_spec p
  have hrx : h.toGraph.highest p ≠ x := by
    intro he; rw [he] at hra; exact ok.outside hra
  have hr2 : h2.parent (h.toGraph.highest p) = none := by
    rw [show h2.parent _ = h.parent _ from i2.parent_ne _ hrx]; exact hr
  rw [s2.highest_eq hr2 (i2.anc_p.mpr hra)]
  split
  · rfl
  · rename_i hii
    have hne : h.inited (h.toGraph.highest p) ≠ none := by
      rcases ok.ready with hp | ⟨-, hp⟩
      · rw [w.skel.highest_eq hp .refl]
        exact hi (by simpa using hii)
      · rw [hp]; simp
    split
    · rename_i he; exact absurd he hne
    · rfl
    · rfl

/-- After unlinking, the request is still fine. -/
theorem LinkOK.unlink {h : Heap T} (w : WF h) {p x q : Id} {A B : List Id} {index : Option Int}
    (ok : LinkOK h p x index) (hk : h.kids q = A ++ x :: B) :
    LinkOK (h.unlinkChild q x) p x index := by
  obtain ⟨w1, i, hii, _, hj, hjo, hc⟩ := unlinkChild_wf w hk
  have hn : h.next = (h.unlinkChild q x).next := i.next
  have hpar := w.skel.parent_of hk
  obtain ⟨a, b, c, d, e⟩ := ok
  have hpx : p ≠ x := by rintro rfl; exact c .refl
  constructor
  · rw [← hn]; exact a
  · rw [← hn]; exact b
  · exact fun ha => c (i.anc_mono ha)
  · rcases d with d | ⟨d1, d2⟩
    · left
      rw [← show h.parent p = (h.unlinkChild q x).parent p from i.parent_ne p hpx]; exact d
    · right
      rw [hii]
      refine ⟨d1, ?_⟩
      obtain ⟨hr, hra⟩ := w.skel.highest_spec p
      have hrx : h.toGraph.highest p ≠ x := by
        intro he; rw [he] at hra; exact c hra
      have hr' : (h.unlinkChild q x).parent (h.toGraph.highest p) = none := by
        rw [← show h.parent _ = (h.unlinkChild q x).parent _ from i.parent_ne _ hrx]; exact hr
      have hra' : Anc (h.unlinkChild q x).toGraph (h.toGraph.highest p) p :=
        i.anc_of hra (fun ha => c (i.anc_mono ha))
      rw [w1.skel.highest_eq hr' hra']
      by_cases hsame : Anc h.toGraph (h.toGraph.highest q) (h.toGraph.highest p)
      · refine hj _ hsame (fun ha => ?_)
        exact hrx ((Graph.anc_root hr).mp ha).symm
      · rw [hjo _ (.inl hsame)]; exact d2
  · intro j hj'
    have := e j hj'
    have hf : ((h.unlinkChild q x).kids p).filter (· ≠ x) = (h.kids p).filter (· ≠ x) := by
      by_cases hpq : p = q
      · subst hpq
        rw [show (h.unlinkChild p x).kids p = A ++ B from i.kids_p, hk]
        simp
      · rw [show h.kids p = (h.unlinkChild q x).kids p from i.kids_ne p hpq]
    rw [hf]; exact this

/-- Linking a child of `q`: unlink, then link. -/
theorem relink_ok {h : Heap T} (w : WF h) {p x q : Id} {A B : List Id} {index : Option Int}
    (ok : LinkOK h p x index) (hl : h.leaf p = false) (hk : h.kids q = A ++ x :: B) :
    WF ((h.unlinkChild q x).linkRoot p x index).1 ∧
    ((h.unlinkChild q x).linkRoot p x index).1.next = h.next ∧
    ((h.unlinkChild q x).linkRoot p x index).1.leaf = h.leaf ∧
    ((h.unlinkChild q x).linkRoot p x index).1.parent x = some p ∧
    (∀ y, y < h.next → ¬ Anc h.toGraph y p → ¬ Anc h.toGraph y q → ∀ t,
      ((h.unlinkChild q x).linkRoot p x index).1.constraints y t = h.constraints y t) := by
  have ok1 := ok.unlink w hk
  obtain ⟨w1, i, -, -, -, -, hc⟩ := unlinkChild_wf w hk
  have hn : h.next = (h.unlinkChild q x).next := i.next
  have hlf : h.leaf = (h.unlinkChild q x).leaf := i.leaf
  obtain ⟨a1, a2, a3, a4, -, a5⟩ := linkRoot_ok w1 ok1 (by rw [← hlf]; exact hl) i.root
  refine ⟨a1, a2.trans hn.symm, a3.trans hlf.symm, a4, ?_⟩
  intro y hy hyp hyq t
  rw [a5 y (by rw [← hn]; exact hy) (fun ha => hyp (i.anc_mono ha)) t, hc y hy hyq t]

/-- Flags are only ever set to `True`. -/
def Grow (h h' : Heap T) : Prop :=
  h'.inInit = h.inInit ∧ ∀ y, h'.inited y = h.inited y ∨ h'.inited y = some true

theorem Grow.refl (h : Heap T) : Grow h h := ⟨rfl, fun _ => .inl rfl⟩

theorem Grow.trans {h h' h'' : Heap T} (a : Grow h h') (b : Grow h' h'') : Grow h h'' :=
  ⟨b.1.trans a.1, fun y => by
    rcases b.2 y with e | e
    · rw [e]; exact a.2 y
    · exact .inr e⟩

theorem Flagged.grow {h h' : Heap T} (g : Grow h h') {y : Id} (hi : h.Flagged y) : h'.Flagged y := by
  intro h1
  rw [g.1] at h1
  rcases g.2 y with e | e
  · rw [e]; exact hi h1
  · rw [e]; simp

theorem linkRoot_grow {h : Heap T} (w : WF h) {p x : Id} {index : Option Int}
    (ok : LinkOK h p x index) (hl : h.leaf p = false) (hpx : h.parent x = none) :
    Grow h (h.linkRoot p x index).1 := by
  have hpos := ok.pos w hpx
  obtain ⟨i2, s2, h2eq⟩ := linkPointers_ins w.skel (index := index) ok.ltx ok.ltp hpx hl ok.outside hpos
  have hn3 := notify_eq s2 p
  unfold Heap.linkRoot
  simp only [hpos, ne_eq, not_true_eq_false, if_false]
  set h2 := (h.linkPointers p x index).addSizes p (h.size x) with hh2
  have f_ii : (h2.notifyParentChange p).inInit = h.inInit := by rw [hn3, h2eq]; rfl
  have f_id : (h2.notifyParentChange p).inited = h.inited := by rw [hn3, h2eq]; rfl
  have e3 : (h2.notifyParentChange p).toGraph = h2.toGraph := by rw [hn3]; rfl
  have g3 : Grow h (h2.notifyParentChange p) := ⟨f_ii, fun y => .inl (by rw [f_id])⟩
  have s3 : Skel (h2.notifyParentChange p).toGraph := by rw [e3]; exact s2
  generalize h2.notifyParentChange p = h3 at *
  split
  · exact g3
  · generalize h3.toGraph.highest p = r
    split
    · exact g3
    · exact g3
    · have hce := connect_eq s3 r
      have s4 : Skel (h3.connect r).toGraph := by rw [hce]; exact s3
      refine g3.trans ?_
      have g4 : Grow h3 (h3.connect r) := by
        rw [hce]
        refine ⟨rfl, fun y => ?_⟩
        simp only []
        split
        · exact .inr rfl
        · exact .inl rfl
      have g5 : Grow (h3.connect r) ((h3.connect r).notifyParentChange r) := by
        rw [notify_eq s4]; exact ⟨rfl, fun y => .inl rfl⟩
      refine (g4.trans g5).trans ?_
      unfold connectFixes
      simp only []
      split <;> exact ⟨rfl, fun y => .inl rfl⟩

theorem unlinkChild_grow {h : Heap T} (w : WF h) {x q : Id} {A B : List Id}
    (hk : h.kids q = A ++ x :: B) : Grow h (h.unlinkChild q x) := by
  obtain ⟨-, -, hii, -, hj, hjo, -⟩ := unlinkChild_wf w hk
  refine ⟨hii, fun p => ?_⟩
  by_cases hx : Anc h.toGraph x p
  · exact .inl (hjo p (.inr hx))
  by_cases hs : Anc h.toGraph (h.toGraph.highest q) p
  · exact .inr (hj p hs hx)
  · exact .inl (hjo p (.inl hs))

theorem Flagged.unlink {h : Heap T} (w : WF h) {p x q : Id} {A B : List Id} (hi : h.Flagged p)
    (hk : h.kids q = A ++ x :: B) : (h.unlinkChild q x).Flagged p := hi.grow (unlinkChild_grow w hk)

/-- What a good request to link leaves behind. -/
structure LinkPost (h h' : Heap T) (e : Option Err) (p x : Id) : Prop where
  wf : WF h'
  next : h'.next = h.next
  leaf : h'.leaf = h.leaf
  keep : ∀ y, y < h.next → ¬ Anc h.toGraph y p → (∀ q, h.parent x = some q → ¬ Anc h.toGraph y q) →
    ∀ t, h'.constraints y t = h.constraints y t
  ok : e = none → h.leaf p = false ∧ h'.parent x = some p
  grow : Grow h h'
  err : e ≠ none → h.Flagged p → ∃ v, h' = { h with visited := v }

theorem link_post {h : Heap T} (w : WF h) {p x : Id} {index : Option Int} (ok : LinkOK h p x index) :
    LinkPost h (h.link p x index).1 (h.link p x index).2 p x := by
  unfold link
  cases hl : h.leaf p with
  | true =>
    simp only [if_true]
    exact ⟨w, rfl, rfl, fun _ _ _ _ _ => rfl, fun h => (by cases h), ⟨rfl, fun _ => .inl rfl⟩, fun _ _ => ⟨h.visited, rfl⟩⟩
  | false =>
    simp only [Bool.false_eq_true, if_false]
    by_cases hm : x ∈ h.kids p
    · rw [if_pos hm]
      cases index with
      | none => exact ⟨w, rfl, rfl, fun _ _ _ _ _ => rfl, fun h => (by cases h), ⟨rfl, fun _ => .inl rfl⟩, fun _ _ => ⟨h.visited, rfl⟩⟩
      | some j =>
        obtain ⟨A, B, hk⟩ := List.append_of_mem hm
        obtain ⟨w1, i, -⟩ := unlinkChild_wf w hk
        have hpx : (h.unlinkChild p x).parent x = none := i.root
        have hlk : (h.unlinkChild p x).linkNew p x (some j)
            = (h.unlinkChild p x).linkRoot p x (some j) := by
          unfold linkNew; rw [hpx]
        simp only [hlk]
        obtain ⟨a1, a2, a3, a4, a5⟩ := relink_ok w ok hl hk
        refine ⟨a1, a2, a3, fun y hy hyp hyq t => a5 y hy hyp hyp t, fun _ => ⟨hl, a4⟩, 
          (unlinkChild_grow w hk).trans <| linkRoot_grow w1 (ok.unlink w hk)
            (by rw [← show h.leaf = (h.unlinkChild p x).leaf from i.leaf]; exact hl) hpx, ?_⟩
        intro hne hi
        exact absurd (linkRoot_none w1 (ok.unlink w hk)
          (by rw [← show h.leaf = (h.unlinkChild p x).leaf from i.leaf]; exact hl) hpx
          (hi.unlink w hk)) hne
    · rw [if_neg hm]
      unfold linkNew
      cases hpx : h.parent x with
      | none =>
        obtain ⟨a1, a2, a3, a4, -, a5⟩ := linkRoot_ok w ok hl hpx
        exact ⟨a1, a2, a3, fun y hy hyp _ t => a5 y hy hyp t, fun _ => ⟨hl, a4⟩,
          linkRoot_grow w ok hl hpx, fun hne hi => absurd (linkRoot_none w ok hl hpx hi) hne⟩
      | some q =>
        simp only []
        generalize h.toGraph.traverseParents (fun _ y => decide (y = p)) ⟨h.visited, [], false⟩ x = s
        cases s.raised with
        | true =>
          exact ⟨w.visited _, rfl, rfl, fun _ _ _ _ _ => rfl, fun h => (by cases h), ⟨rfl, fun _ => .inl rfl⟩, fun _ _ => ⟨_, rfl⟩⟩
        | false =>
          simp only [Bool.false_eq_true, if_false]
          have hxq : x ∈ h.kids q := (w.skel.mem_iff _ _).mpr hpx
          obtain ⟨A, B, hk⟩ := List.append_of_mem hxq
          have w0 := w.visited s.marks
          have hk0 : ({ h with visited := s.marks } : Heap T).kids q = A ++ x :: B := hk
          have hi0 : ∀ p, h.Flagged p → ({ h with visited := s.marks } : Heap T).Flagged p :=
            fun _ h => h
          have ok' : LinkOK ({ h with visited := s.marks } : Heap T) p x index :=
            ⟨ok.1, ok.2, ok.3, ok.4, ok.5⟩
          have hg0 : Grow h ({ h with visited := s.marks } : Heap T) := ⟨rfl, fun _ => .inl rfl⟩
          have e1 : ({ h with visited := s.marks } : Heap T).next = h.next := rfl
          have e2 : ({ h with visited := s.marks } : Heap T).leaf = h.leaf := rfl
          have e3 : ({ h with visited := s.marks } : Heap T).toGraph = h.toGraph := rfl
          have e4 : ({ h with visited := s.marks } : Heap T).constraints = h.constraints := rfl
          generalize ({ h with visited := s.marks } : Heap T) = h0 at *
          obtain ⟨a1, a2, a3, a4, a5⟩ := relink_ok w0 ok' (by rw [e2]; exact hl) hk0
          rw [e1, e3, e4] at a5
          obtain ⟨w1, i, -⟩ := unlinkChild_wf w0 hk0
          have hl1 : (h0.unlinkChild q x).leaf p = false := by
            rw [← show h0.leaf = (h0.unlinkChild q x).leaf from i.leaf, e2]; exact hl
          refine ⟨a1, a2.trans e1, a3.trans e2,
            fun y hy hyp hyq t => a5 y hy hyp (hyq q hpx) t, fun _ => ⟨hl, a4⟩, 
              Grow.trans ⟨hg0.1, hg0.2⟩ ((unlinkChild_grow w0 hk0).trans <|
                linkRoot_grow w1 (ok'.unlink w0 hk0) hl1 i.root), ?_⟩
          intro hne hi
          exact absurd (linkRoot_none w1 (ok'.unlink w0 hk0) hl1 i.root
            ((hi0 p hi).unlink w0 hk0)) hne


theorem unlink_wf {h : Heap T} (w : WF h) (q x : Id) : WF (h.unlink q x).1 := by
  unfold unlink
  split
  · exact w
  · split
    · rename_i hx
      obtain ⟨A, B, hk⟩ := List.append_of_mem hx
      exact (unlinkChild_wf w hk).1
    · exact w

/-! ### Copies -/

theorem copy_flagged {h : Heap T} (w : WF h) {x : Id} (hx : x < h.next)
    (f : ∀ p, h.leaf p = false → p < h.next → h.Flagged p) :
    ∀ p, (h.copy x).1.leaf p = false → p < (h.copy x).1.next → (h.copy x).1.Flagged p := by
  have c := (copy_copied w.skel hx).1
  have wB := beforeCopy_wf w x
  obtain ⟨F, V, hB⟩ := beforeCopy_eq h x
  have fB : ∀ p, (h.beforeCopy x).leaf p = false → p < (h.beforeCopy x).next →
      (h.beforeCopy x).Flagged p := by rw [hB]; exact f
  generalize h.beforeCopy x = b at c wB fB
  intro p h1 h2
  rw [show (h.copy x).1.next = (b.rawCopy x).next by rw [c.graph]] at h2
  rw [show (h.copy x).1.leaf = (b.rawCopy x).leaf by rw [c.graph]] at h1
  rcases raw_below wB.skel h2 with h3 | ⟨y, hy, rfl⟩
  · have h1 : b.leaf p = false := by rw [← h1]; exact (lift_old _ _ h3).symm
    unfold Flagged
    rw [c.inInit p h3, c.inited p h3]
    exact fB p h1 h3
  · rw [raw_leaf_new wB.skel hy] at h1
    cases hl : b.leaf x with
    | true =>
      rw [subtree_leaf wB.skel hl hy, hl] at h1; cases h1
    | false =>
      intro _
      rw [c.new hl y hy]; simp

/-! ### Histories -/

/-- The calls a user may make in a state. Constraining calls are made on existing objects (or parts of
an existing `Param`); a constructor ends once; link requests are as in `LinkOK`; everything else is
unrestricted. -/
def Admissible (h : Heap T) : Ev T → Prop
  | .newParam _ => True
  | .newNode => True
  | .finishInit x _ => x < h.next ∧ h.leaf x = false
  | .init x => x < h.next
  | .link p x index => LinkOK h p x index
  | .unlink _ _ => True
  | .constrain x _ => x.OK h
  | .unconstrain x _ => x.OK h
  | .fix x => x.OK h
  | .unfix x => x.OK h

/-- When `x.copy()` is modelled: the search for parents (pickleable.py:86) meets the parent, which is
then replaced by `None`. It always does unless marks were left behind by an earlier search that raised
(see `copyOK_of_clean`, `copy_parents_fails`). -/
structure CopyOK (h : Heap T) (x : Id) : Prop where
  lt : x < h.next
  cut : ∀ p, h.parent x = some p → p ∈ (h.copySearch x).trace

/-- States reached by a history of admissible calls, copies and reads of `optimizer_array` of any object (which
may leave a mask there). -/
inductive Reach : Heap T → Prop
  | empty : Reach Heap.empty
  | step {h : Heap T} {e : Ev T} : Reach h → h.Admissible e → Reach (h.exec e).1
  | copy {h : Heap T} {x : Id} : Reach h → h.CopyOK x → Reach (h.copy x).1
  | read {h : Heap T} {x : Id} : Reach h → Reach (h.readOptimizerArray x)

/-- The constraining and fixing calls. -/
theorem constraining_wf {h : Heap T} (w : WF h) {x : Target} (ok : x.OK h) :
    (∀ c, WF (h.constrain x c) ∧ Same h (h.constrain x c)) ∧
    (∀ cs, WF (h.unconstrain x cs) ∧ Same h (h.unconstrain x cs)) ∧
    (WF (h.fix x) ∧ Same h (h.fix x)) ∧ (WF (h.unfix x) ∧ Same h (h.unfix x)) := by
  obtain ⟨r, o, c⟩ := ok.exists_ctx w
  refine ⟨?_, fun cs => ?_, ?_, ?_⟩
  · rintro (_ | t)
    · exact ⟨(fix_spec w c).1, (fix_spec w c).2.same⟩
    · exact ⟨(constrain_spec w c t).1, (constrain_spec w c t).2.same⟩
  · exact ⟨(unconstrain_spec w c cs).1, (unconstrain_spec w c cs).2.same⟩
  · exact ⟨(fix_spec w c).1, (fix_spec w c).2.same⟩
  · exact ⟨(unfix_spec w c).1, (unfix_spec w c).2.same⟩

theorem Reach.inv {h : Heap T} (hr : Reach h) :
    WF h ∧ ∀ p, h.leaf p = false → p < h.next → h.Flagged p := by
  induction hr with
  | empty => exact ⟨WF.empty, fun p _ hp => absurd hp (Nat.not_lt_zero p)⟩
  | @step h e _ ha ih =>
    obtain ⟨w, f⟩ := ih
    have same : ∀ h' : Heap T, Same h h' → ∀ p, h'.leaf p = false → p < h'.next → h'.Flagged p := by
      intro h' s p h1 h2
      unfold Flagged
      rw [s.inInit, s.inited]
      exact f p (by rw [← show h'.leaf p = h.leaf p by rw [s.graph]]; exact h1)
        (by rw [← show h'.next = h.next by rw [s.graph]]; exact h2)
    cases e with
    | newParam n =>
      refine ⟨newObj_wf w true n false (by simp), fun p h1 h2 h3 => ?_⟩
      have h1 : upd h.leaf h.next true p = false := h1
      have h2 : p < h.next + 1 := h2
      have h3 : upd h.inInit h.next false p = false := h3
      show upd h.inited h.next none p ≠ none
      by_cases hp : p = h.next
      · subst hp; rw [upd_same] at h1; cases h1
      · rw [upd_ne _ _ hp] at h1 h3 ⊢
        exact f p h1 (Nat.lt_of_le_of_ne (Nat.le_of_lt_succ h2) hp) h3
    | newNode =>
      refine ⟨newObj_wf w false 0 true (by simp), fun p h1 h2 h3 => ?_⟩
      have h1 : upd h.leaf h.next false p = false := h1
      have h2 : p < h.next + 1 := h2
      have h3 : upd h.inInit h.next true p = false := h3
      show upd h.inited h.next none p ≠ none
      by_cases hp : p = h.next
      · subst hp; rw [upd_same] at h3; cases h3
      · rw [upd_ne _ _ hp] at h1 h3 ⊢
        exact f p h1 (Nat.lt_of_le_of_ne (Nat.le_of_lt_succ h2) hp) h3
    | finishInit x i =>
      obtain ⟨a, b, c⟩ := finishInit_wf w ha.1 i
      refine ⟨a, ?_⟩
      show ∀ p, (h.finishInit x i).leaf p = false → p < (h.finishInit x i).next →
        (h.finishInit x i).Flagged p
      set h1 : Heap T :=
        { h with inInit := upd h.inInit x false, inited := upd h.inited x (some false) } with hh1
      have f1 : ∀ p, h1.leaf p = false → p < h1.next → h1.Flagged p := by
        intro p h1 h2 h3
        have h3 : upd h.inInit x false p = false := h3
        show upd h.inited x (some false) p ≠ none
        by_cases hp : p = x
        · subst hp; rw [upd_same]; simp
        · rw [upd_ne _ _ hp] at h3 ⊢
          exact f p h1 h2 h3
      have w1 : WF h1 := (finishInit_wf w ha.1 false).1
      cases i with
      | false => exact f1
      | true =>
        show ∀ p, (h1.initializeParameter x).leaf p = false → p < (h1.initializeParameter x).next →
          (h1.initializeParameter x).Flagged p
        obtain ⟨r, D, F, J, -, -, -, -, -, -, -, -, hJ, hJr, he⟩ :=
          initialize_eq w1 (x := x) ha.1
        rw [he]
        intro p h1' h2 h3
        show J p ≠ none
        by_cases hp : Anc h1.toGraph r p
        · rw [hJr p hp]; simp
        · rw [hJ p hp]; exact f1 p h1' h2 h3
    | init x =>
      obtain ⟨r, D, F, J, -, -, -, -, -, -, -, -, hJ, hJr, he⟩ := initialize_eq w ha
      refine ⟨(initialize_wf w ha).1, ?_⟩
      show ∀ p, (h.initializeParameter x).leaf p = false → p < (h.initializeParameter x).next → 
        (h.initializeParameter x).Flagged p
      rw [he]
      intro p h1 h2 h3
      show J p ≠ none
      by_cases hp : Anc h.toGraph r p
      · rw [hJr p hp]; simp
      · rw [hJ p hp]; exact f p h1 h2 h3
    | link p x index =>
      have lp := link_post w ha
      refine ⟨lp.wf, fun y h1 h2 => ?_⟩
      exact (f y (by rw [← lp.leaf]; exact h1) (by rw [← lp.next]; exact h2)).grow lp.grow
    | unlink q x =>
      refine ⟨unlink_wf w q x, ?_⟩
      show ∀ p, (h.unlink q x).1.leaf p = false → p < (h.unlink q x).1.next → 
        (h.unlink q x).1.Flagged p
      unfold unlink
      split
      · exact f
      · split
        · rename_i hx
          obtain ⟨A, B, hk⟩ := List.append_of_mem hx
          have i := (unlinkChild_wf w hk).2.1
          intro p h1 h2
          exact (f p (by rw [show h.leaf = (h.unlinkChild q x).leaf from i.leaf]; exact h1)
            (by rw [show h.next = (h.unlinkChild q x).next from i.next]; exact h2)).unlink w hk
        · exact f
    | constrain x c => exact ⟨((constraining_wf w ha).1 c).1, same _ ((constraining_wf w ha).1 c).2⟩
    | unconstrain x cs =>
      exact ⟨((constraining_wf w ha).2.1 cs).1, same _ ((constraining_wf w ha).2.1 cs).2⟩
    | fix x => exact ⟨(constraining_wf w ha).2.2.1.1, same _ (constraining_wf w ha).2.2.1.2⟩
    | unfix x => exact ⟨(constraining_wf w ha).2.2.2.1, same _ (constraining_wf w ha).2.2.2.2⟩
  | @copy h x _ ok ih =>
    obtain ⟨w, f⟩ := ih
    exact ⟨copied_wf w ok.lt, copy_flagged w ok.lt f⟩
  | @read h x _ ih =>
    obtain ⟨w, f⟩ := ih
    refine ⟨readOptimizerArray_wf w, ?_⟩
    obtain ⟨F, hF⟩ := readOptimizerArray_eq h x
    rw [hF]
    exact f

theorem Reach.wf {h : Heap T} (hr : Reach h) : WF h := hr.inv.1

end Heap

end Paramz.Hier
