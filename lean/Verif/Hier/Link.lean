import Verif.Hier.Lemmas

/-!
# Linking a root keeps the state well formed and every parameter's constraints
-/

set_option linter.unusedSectionVars false

namespace Paramz.Hier

open IndexOps (Arr Dict Iop lookup)
open Graph (Anc At Skel Sized Ins)

namespace Graph

theorem anc_of_parent_eq {g g' : Graph} (h : g'.parent = g.parent) {y x : Id} :
    Anc g' y x ↔ Anc g y x :=
  ⟨anc_congr (fun z _ => by rw [h]), anc_congr (fun z _ => by rw [h])⟩

end Graph

namespace Heap

variable {T : Type} [DecidableEq T]

/-- `_connect_parameters` of a forest only marks objects as initialised. -/
theorem connect_eq {h : Heap T} (s : Skel h.toGraph) (x : Id) :
    h.connect x = { h with
      inited := fun y => if y ∈ h.toGraph.subtree x then some true else h.inited y } := by
  have h1 : (fun c => if c ∈ h.kids x then some x else h.parent c) = h.parent := by
    funext c
    split
    · rename_i hc; exact ((s.mem_iff _ _).mp hc).symm
    · rfl
  have h2 : (fun c => if c ∈ h.kids x then (h.kids x).idxOf c else h.pidx c) = h.pidx := by
    funext c
    split
    · rename_i hc
      have := List.idxOf_lt_length_of_mem hc
      exact (s.pidx x _ c (by rw [List.getElem?_eq_getElem this, List.getElem_idxOf])).symm
    · rfl
  unfold connect
  rw [h1, h2]

/-- A heap that arises by inserting the tree of `x` below `p` is well formed, given that the views below
the receiving root are refreshed and its dictionary has received the constraints of `x`. -/
theorem wf_of_ins {h h' : Heap T} (w : WF h) {p x r o : Nat} {A B : List Id}
    (i : Ins h.toGraph h'.toGraph p x A B) (s' : Skel h'.toGraph)
    (hxlt : x < h.next) (hr : h.parent r = none) (hrlt : r < h.next) (hp : At h.toGraph r p o)
    (hin : ∀ y, Anc h'.toGraph r y → y ≠ r →
      h'.iop y = ((h.iop r).1, .view .base (h'.toGraph.offsetFor r y) (h'.size y)))
    (hout : ∀ y, ¬ (Anc h'.toGraph r y ∧ y ≠ r) → h'.iop y = h.iop y)
    (hnd : h'.nextDict = h.nextDict)
    (hd : ∀ t j, j ∈ lookup (h'.dicts (h.iop r).1) t ↔
      (j < o + h.toGraph.sizeSum A ∧ j ∈ lookup (h.dicts (h.iop r).1) t) ∨
      (o + h.toGraph.sizeSum A + h.size x ≤ j ∧ j - h.size x ∈ lookup (h.dicts (h.iop r).1) t) ∨
      (o + h.toGraph.sizeSum A ≤ j ∧ j < o + h.toGraph.sizeSum A + h.size x ∧
        j - (o + h.toGraph.sizeSum A) ∈ lookup (h.dicts (h.iop x).1) t))
    (hdw : IndexOps.WF (h'.dicts (h.iop r).1))
    (hdo : ∀ e, e ≠ (h.iop r).1 → h'.dicts e = h.dicts e)
    (hii : h'.inInit = h.inInit)
    (hid : ∀ y, ¬ Anc h'.toGraph r y → h'.inited y = h.inited y)
    (hfo : ∀ y, ¬ Anc h'.toGraph r y → h'.fixes y = h.fixes y)
    (hm : h'.leaf r = false → ∀ m, h'.fixes r = some m → m.length ≤ h'.size r ∧
      (m.length = h'.size r → m = maskOf (h'.size r) (lookup (h'.dicts (h.iop r).1) .fixed)))
    (hrd : h'.inInit r = false → h'.inited r = some true →
      (h'.fixes r = none → lookup (h'.dicts (h.iop r).1) .fixed = []) ∧
      ∀ m, h'.fixes r = some m → m.length = h'.size r) :
    WF h' ∧ ∀ y, y < h.next → ¬ Anc h.toGraph y p → ∀ t,
      h'.constraints y t = h.constraints y t := by
  have hnx : h'.next = h.next := i.next
  have hrx : r ≠ x := by rintro rfl; exact i.notanc (hp.anc w.skel)
  have hr' : h'.parent r = none := by
    rw [show h'.parent r = h.parent r from i.parent_ne r hrx]; exact hr
  have hiopr : h'.iop r = h.iop r := hout r (fun h => h.2 rfl)
  have z' : Sized h'.toGraph := (i.sized_iff w.skel).mpr w.sized
  have hsr : h'.size r = h.size r + h.size x := i.size_anc r (hp.anc w.skel)
  have hroots : ∀ q, h'.parent q = none → q ≠ x ∧ h.parent q = none := by
    intro q hq
    have hqx : q ≠ x := by
      rintro rfl
      rw [show h'.parent q = some p from i.parent_x] at hq; cases hq
    rw [show h'.parent q = h.parent q from i.parent_ne q hqx] at hq
    exact ⟨hqx, hq⟩
  have hother : ∀ q, h'.parent q = none → q ≠ r → ∀ y, Anc h'.toGraph q y → ¬ Anc h'.toGraph r y :=
    fun q hq hqr y h1 h2 => hqr (Graph.root_unique hq hr' h1 h2)
  have hiopq : ∀ q, h'.parent q = none → h'.iop q = h.iop q := by
    intro q hq
    by_cases hqr : q = r
    · rw [hqr, hiopr]
    · exact hout q (fun h => hother q hq hqr q .refl h.1)
  have hdq : ∀ q, q < h'.next → h'.parent q = none → q ≠ r →
      h'.dicts (h'.iop q).1 = h.dicts (h.iop q).1 := by
    intro q hlt hq hqr
    rw [hiopq q hq]
    apply hdo
    intro he
    rw [hnx] at hlt
    exact hqr (w.inj q r hlt hrlt (hroots q hq).2 hr he)
  have hsq : ∀ q, h'.parent q = none → q ≠ r → h'.size q = h.size q := by
    intro q hq hqr
    apply i.size_not
    intro ha
    exact hqr (Graph.root_unique (hroots q hq).2 hr ha (hp.anc w.skel))
  have hsp : o + h.toGraph.sizeSum A ≤ h.size r := by
    have h1 := hp.window w.skel w.sized
    have h2 := w.sized p i.node
    rw [i.kids_p, Graph.sizeSum_append] at h2
    have h3 : h.toGraph.size p = h.size p := rfl
    have h4 : h.toGraph.size r = h.size r := rfl
    omega
  have wf' : WF h' := by
    constructor
    · exact s'
    · exact z'
    · intro q hlt hq
      rw [hiopq q hq, hnd]
      rw [hnx] at hlt
      exact w.root q hlt (hroots q hq).2
    · intro q q' hlt hlt' hq hq' he
      rw [hiopq q hq, hiopq q' hq'] at he
      rw [hnx] at hlt hlt'
      exact w.inj q q' hlt hlt' (hroots q hq).2 (hroots q' hq').2 he
    · intro q y n hlt hq ha hne
      have hanc := ha.anc s'
      by_cases hqr : q = r
      · subst hqr
        rw [hin y hanc hne, hiopr, s'.offsetFor_of_root hq ha]
      · have hny := hother q hq hqr y hanc
        rw [hout y (fun h => hny h.1), hiopq q hq]
        have hxy : ¬ Anc h.toGraph x y := by
          intro h1
          apply hny
          have h2 : Anc h'.toGraph r p := i.anc_p.mpr (hp.anc w.skel)
          exact (h2.step i.parent_x).trans (i.anc_mono h1)
        have h3 := i.anc_of hanc hxy
        obtain ⟨m, hmm⟩ := w.skel.exists_at h3
        have hqp : ¬ Anc h.toGraph q p := fun h4 =>
          hqr (Graph.root_unique (hroots q hq).2 hr h4 (hp.anc w.skel))
        have := s'.at_unique (i.at_other w.skel hqp hmm) ha
        subst this
        rw [hnx] at hlt
        rw [w.view q y m hlt (hroots q hq).2 hmm hne]
        have : h'.size y = h.size y := i.size_not y (fun h4 => hqp (h3.trans h4))
        rw [this]
    · intro q hlt hq
      by_cases hqr : q = r
      · subst hqr; rw [hiopr]; exact hdw
      · rw [hdq q hlt hq hqr]
        rw [hnx] at hlt
        exact w.dict q hlt (hroots q hq).2
    · intro q hlt hq t j hj
      by_cases hqr : q = r
      · subst hqr
        rw [hiopr, hd] at hj
        rw [hsr]
        rcases hj with hj | hj | hj
        · omega
        · have := w.bound q hrlt hr t _ hj.2
          omega
        · omega
      · rw [hdq q hlt hq hqr] at hj
        rw [hsq q hq hqr]
        rw [hnx] at hlt
        exact w.bound q hlt (hroots q hq).2 t j hj
    · intro q hlt hq t u j h1 h2
      by_cases hqr : q = r
      · subst hqr
        rw [hiopr, hd] at h1 h2
        rcases h1 with h1 | h1 | h1 <;> rcases h2 with h2 | h2 | h2
        · exact w.single q hrlt hr t u j h1.2 h2.2
        · omega
        · omega
        · omega
        · exact w.single q hrlt hr t u _ h1.2 h2.2
        · omega
        · omega
        · omega
        · exact w.single x hxlt i.root t u _ h1.2.2 h2.2.2
      · rw [hdq q hlt hq hqr] at h1 h2
        rw [hnx] at hlt
        exact w.single q hlt (hroots q hq).2 t u j h1 h2
    · intro q hlt hq hl
      by_cases hqr : q = r
      · subst hqr; rw [hiopr]; exact hm hl
      · rw [hdq q hlt hq hqr, hsq q hq hqr, hfo q (hother q hq hqr q .refl)]
        rw [hnx] at hlt
        rw [show h'.leaf = h.leaf from i.leaf] at hl
        exact w.mask q hlt (hroots q hq).2 hl
    · intro q hlt hq hl hi1 hi2
      by_cases hqr : q = r
      · subst hqr; rw [hiopr]; exact hrd hi1 hi2
      · have hno := hother q hq hqr q .refl
        rw [hdq q hlt hq hqr, hsq q hq hqr, hfo q hno]
        rw [hnx] at hlt
        rw [show h'.leaf = h.leaf from i.leaf] at hl
        rw [hii] at hi1
        rw [hid q hno] at hi2
        exact w.ready q hlt (hroots q hq).2 hl hi1 hi2
  refine ⟨wf', fun y hy hyp t => ins_constraints w wf' i hxlt hr hrlt hp ?_ ?_ hy hyp t⟩
  · intro t j; rw [hiopr]; exact hd t j
  · intro q hlt hq hqr hqx t
    have hq' : h'.parent q = none := by
      rw [show h'.parent q = h.parent q from i.parent_ne q hqx]; exact hq
    rw [hdq q (by rw [hnx]; exact hlt) hq' hqr]

/-! ### The pointers after linking -/

theorem sliceTo_eq (l : List Id) (i : Int) : sliceTo l i = l.take (sliceTo l i).length := by
  unfold sliceTo
  split <;> simp [List.take_eq_take_iff]

theorem insertPos_le (l : List Id) (i : Option Int) : insertPos l i ≤ l.length := by
  cases i with
  | none => simp [insertPos]
  | some i => simp only [insertPos, sliceTo]; split <;> simp

theorem linkPointers_pidx {h : Heap T} (s : Skel h.toGraph) {p x : Id} {index : Option Int}
    (hpx : h.parent x = none) (hpos : storedIndex (h.kids p) index = insertPos (h.kids p) index) :
    ∀ q j c, ((h.linkPointers p x index).kids q)[j]? = some c →
      (h.linkPointers p x index).pidx c = j := by
  have hk := insertPos_le (h.kids p) index
  have hnd := s.nodup p
  intro q j c hc
  simp only [linkPointers] at hc ⊢
  have hxk : ∀ q, x ∉ h.kids q := by
    intro q hm
    have := (s.mem_iff x q).mp hm
    rw [hpx] at this; cases this
  by_cases hq : q = p
  · subst hq
    rw [upd_same] at hc
    have hlen : ((h.kids q).take (insertPos (h.kids q) index)).length =
        insertPos (h.kids q) index := by simp [hk]
    rcases Nat.lt_trichotomy j (insertPos (h.kids q) index) with hj | hj | hj
    · rw [List.getElem?_append_left (by rw [hlen]; exact hj), List.getElem?_take_of_lt hj] at hc
      have hcx : c ≠ x := by
        rintro rfl; exact hxk q (List.mem_of_getElem? hc)
      have hnot : c ∉ (h.kids q).drop (insertPos (h.kids q) index) := by
        intro hm
        obtain ⟨n, hn⟩ := List.mem_iff_getElem?.mp hm
        rw [List.getElem?_drop] at hn
        have e1 := s.pidx q _ c hc
        have e2 := s.pidx q _ c hn
        omega
      rw [if_neg hcx, if_neg hnot]
      exact s.pidx q j c hc
    · subst hj
      rw [List.getElem?_append_right (by rw [hlen]), hlen, Nat.sub_self] at hc
      simp only [List.getElem?_cons_zero, Option.some.injEq] at hc
      subst hc
      rw [if_pos rfl]; exact hpos
    · rw [List.getElem?_append_right (by rw [hlen]; omega), hlen] at hc
      obtain ⟨m, hm⟩ : ∃ m, j - insertPos (h.kids q) index = m + 1 :=
        ⟨j - insertPos (h.kids q) index - 1, by omega⟩
      rw [hm, List.getElem?_cons_succ] at hc
      have hmem := List.mem_of_getElem? hc
      have hc2 := hc
      rw [List.getElem?_drop] at hc2
      have hcx : c ≠ x := by
        rintro rfl; exact hxk q (List.mem_of_getElem? hc2)
      rw [if_neg hcx, if_pos hmem]
      have := s.pidx q _ c hc2
      have e : h.toGraph.pidx c = h.pidx c := rfl
      omega
  · rw [upd_ne _ _ hq] at hc
    have hmem := List.mem_of_getElem? hc
    have hcx : c ≠ x := by rintro rfl; exact hxk q hmem
    have hnot : c ∉ (h.kids p).drop (insertPos (h.kids p) index) := by
      intro hm
      have e1 := (s.mem_iff c p).mp (List.mem_of_mem_drop hm)
      have e2 := (s.mem_iff c q).mp hmem
      rw [e1] at e2; exact hq (Option.some.inj e2).symm
    rw [if_neg hcx, if_neg hnot]
    exact s.pidx q j c hc

/-- Pointers and sizes after linking: an insertion. -/
theorem linkPointers_ins {h : Heap T} (s : Skel h.toGraph) {p x : Id} {index : Option Int}
    (hlt : x < h.next) (hplt : p < h.next) (hpx : h.parent x = none) (hl : h.leaf p = false)
    (hna : ¬ Anc h.toGraph x p)
    (hpos : storedIndex (h.kids p) index = insertPos (h.kids p) index) :
    Ins h.toGraph ((h.linkPointers p x index).addSizes p (h.size x)).toGraph p x
      ((h.kids p).take (insertPos (h.kids p) index)) ((h.kids p).drop (insertPos (h.kids p) index)) ∧
    Skel ((h.linkPointers p x index).addSizes p (h.size x)).toGraph ∧
    (h.linkPointers p x index).addSizes p (h.size x) =
      { h.linkPointers p x index with
        size := ((h.linkPointers p x index).addSizes p (h.size x)).size } := by
  classical
  have hxp : x ≠ p := by rintro rfl; exact hna .refl
  have hpidx := linkPointers_pidx s hpx hpos
  have mk : ∀ G : Graph, G.next = h.next → G.leaf = h.leaf →
      G.parent = (h.linkPointers p x index).parent → G.kids = (h.linkPointers p x index).kids →
      (∀ y, Anc h.toGraph y p → G.size y = h.size y + h.size x) →
      (∀ y, ¬ Anc h.toGraph y p → G.size y = h.size y) →
      Ins h.toGraph G p x
      ((h.kids p).take (insertPos (h.kids p) index))
      ((h.kids p).drop (insertPos (h.kids p) index)) := by
    intro G g1 g2 g3 g4 g5 g6
    constructor
    · exact g1
    · exact g2
    · exact hl
    · rw [List.take_append_drop]
    · rw [g4]; simp [linkPointers]
    · intro y hy; rw [g4]; simp [linkPointers, upd, hy]
    · exact hpx
    · rw [g3]; simp [linkPointers]
    · intro y hy; rw [g3]; simp [linkPointers, upd, hy]
    · exact hna
    · exact g5
    · exact g6
  let G0 : Graph := { (h.linkPointers p x index).toGraph with
    size := fun y => if Anc h.toGraph y p then h.size y + h.size x else h.size y }
  have i0 := mk G0 rfl rfl rfl rfl (fun y hy => by simp [G0, hy]) (fun y hy => by simp [G0, hy])
  have s0 : Skel G0 := i0.skel' s hlt hplt hpidx
  have s1 : Skel (h.linkPointers p x index).toGraph := s0.of_eq rfl rfl rfl rfl rfl
  have hup : ∀ y, y ∈ (h.linkPointers p x index).toGraph.upwards p ↔ Anc h.toGraph y p := by
    intro y
    rw [s1.mem_upwards, ← i0.anc_p]
    exact Graph.anc_of_parent_eq (g := G0) (g' := (h.linkPointers p x index).toGraph) rfl
  have hadd : (h.linkPointers p x index).addSizes p (h.size x) =
      { h.linkPointers p x index with
        size := fun y => if y ∈ (h.linkPointers p x index).toGraph.upwards p
          then h.size y + h.size x else h.size y } := by
    unfold addSizes
    rw [addSizes_fold _ _ _ (s1.nodup_upwards p)]
    rfl
  have i1 : Ins h.toGraph ((h.linkPointers p x index).addSizes p (h.size x)).toGraph p x
      ((h.kids p).take (insertPos (h.kids p) index))
      ((h.kids p).drop (insertPos (h.kids p) index)) := by
    rw [hadd]
    refine mk (Graph.mk _ _ _ _ _ _) rfl rfl rfl rfl ?_ ?_
    · intro y hy
      show (if y ∈ (h.linkPointers p x index).toGraph.upwards p then _ else _) = _
      rw [if_pos ((hup y).mpr hy)]
    · intro y hy
      show (if y ∈ (h.linkPointers p x index).toGraph.upwards p then _ else _) = _
      rw [if_neg (fun hm => hy ((hup y).mp hm))]
  refine ⟨i1, ?_, ?_⟩
  · rw [hadd]; exact s1.of_eq rfl rfl rfl rfl rfl
  · rw [hadd]

/-- The dictionary of the receiving root after linking. -/
theorem linkPointers_dict {h : Heap T} (w : WF h) {p x r o : Nat} {index : Option Int}
    (hlt : x < h.next) (hpx : h.parent x = none) (hl : h.leaf p = false)
    (hr : h.parent r = none) (hrlt : r < h.next) (hp : At h.toGraph r p o)
    (hna : ¬ Anc h.toGraph x p) :
    (h.iop p).1 = (h.iop r).1 ∧
    IndexOps.WF ((h.linkPointers p x index).dicts (h.iop r).1) ∧
    (∀ e, e ≠ (h.iop r).1 → (h.linkPointers p x index).dicts e = h.dicts e) ∧
    ∀ t j, j ∈ lookup ((h.linkPointers p x index).dicts (h.iop r).1) t ↔
      (j < o + h.toGraph.sizeSum ((h.kids p).take (insertPos (h.kids p) index)) ∧
        j ∈ lookup (h.dicts (h.iop r).1) t) ∨
      (o + h.toGraph.sizeSum ((h.kids p).take (insertPos (h.kids p) index)) + h.size x ≤ j ∧
        j - h.size x ∈ lookup (h.dicts (h.iop r).1) t) ∨
      (o + h.toGraph.sizeSum ((h.kids p).take (insertPos (h.kids p) index)) ≤ j ∧
        j < o + h.toGraph.sizeSum ((h.kids p).take (insertPos (h.kids p) index)) + h.size x ∧
        j - (o + h.toGraph.sizeSum ((h.kids p).take (insertPos (h.kids p) index))) ∈
          lookup (h.dicts (h.iop x).1) t) := by
  have hrx : r ≠ x := by rintro rfl; exact hna (hp.anc w.skel)
  have hdx : (h.iop x).1 ≠ (h.iop r).1 := fun he => hrx (w.inj r x hrlt hlt hr hpx he.symm)
  have hiop : (h.iop p).1 = (h.iop r).1 ∧ (h.iop p).2.offset = o := by
    by_cases hpr : p = r
    · subst hpr
      refine ⟨rfl, ?_⟩
      rw [(w.root p hrlt hr).1, w.skel.at_self hp]; rfl
    · rw [w.view r p o hrlt hr hp hpr]
      refine ⟨rfl, ?_⟩
      simp [Iop.offset, IndexOps.Spec.offset]
  have hoff : h.copyOffset p index =
      h.toGraph.sizeSum ((h.kids p).take (insertPos (h.kids p) index)) := by
    cases index with
    | none =>
      simp only [copyOffset, insertPos, List.take_length]
      exact w.sized p hl
    | some i => simp only [copyOffset, insertPos]; rw [← sliceTo_eq]
  refine ⟨hiop.1, ?_, ?_, ?_⟩
  · simp only [linkPointers, hiop.1, upd_same]
    apply Iop.update_wf
    rw [Iop.shiftRight_eq]
    exact (w.dict r hrlt hr).shiftRight _ _
  · intro e he
    simp only [linkPointers, hiop.1]
    rw [upd_ne _ _ he, upd_ne _ _ he]
  · intro t j
    simp only [linkPointers, hiop.1, upd_same, hoff]
    rw [Iop.mem_lookup_update, Iop.shiftRight_eq, IndexOps.lookup_shiftRight,
      IndexOps.mem_shiftRightArr, hiop.2, upd_ne _ _ hdx, (w.root x hlt hpx).1]
    generalize h.toGraph.sizeSum ((h.kids p).take (insertPos (h.kids p) index)) = S
    have hits : (∃ a, (t, a) ∈ Iop.base.items (h.dicts (h.iop x).1) ∧ ∃ i ∈ a, j = i + S + o) ↔
        (o + S ≤ j ∧ j < o + S + h.size x ∧ j - (o + S) ∈ lookup (h.dicts (h.iop x).1) t) := by
      constructor
      · rintro ⟨a, ha, i, hi, rfl⟩
        rw [Iop.mem_items _ (w.dict x hlt hpx).keys, Iop.get_base] at ha
        rw [← ha.1] at hi
        have := w.bound x hlt hpx t i hi
        refine ⟨by omega, by omega, ?_⟩
        convert hi using 1; omega
      · rintro ⟨h1, h2, h3⟩
        refine ⟨lookup (h.dicts (h.iop x).1) t, ?_, j - (o + S), h3, by omega⟩
        rw [Iop.mem_items _ (w.dict x hlt hpx).keys, Iop.get_base]
        exact ⟨rfl, List.ne_nil_of_mem h3⟩
    rw [hits, Nat.add_comm S o, or_assoc]

/-- Where the code may link: into a root, or into a hierarchy whose construction is over and which has
been initialised. -/
def LinkReady (h : Heap T) (p : Id) : Prop :=
  h.parent p = none ∨ (h.inInit p = false ∧ h.inited (h.toGraph.highest p) = some true)

/-- Linking a root `x` into `p`. -/
theorem linkRoot_wf {h : Heap T} (w : WF h) {p x : Id} {index : Option Int}
    (hlt : x < h.next) (hplt : p < h.next) (hpx : h.parent x = none) (hl : h.leaf p = false)
    (hna : ¬ Anc h.toGraph x p) (hready : h.LinkReady p)
    (hpos : storedIndex (h.kids p) index = insertPos (h.kids p) index) :
    WF (h.linkRoot p x index).1 ∧
    Ins h.toGraph (h.linkRoot p x index).1.toGraph p x
      ((h.kids p).take (insertPos (h.kids p) index)) ((h.kids p).drop (insertPos (h.kids p) index)) ∧
    (∀ y, y < h.next → ¬ Anc h.toGraph y p → ∀ t,
      (h.linkRoot p x index).1.constraints y t = h.constraints y t) := by
  obtain ⟨r, hr, hra⟩ := w.skel.exists_root p
  have hrlt := w.skel.anc_lt hra hplt
  obtain ⟨o, hp⟩ := w.skel.exists_at hra
  obtain ⟨i2, s2, h2eq⟩ := linkPointers_ins w.skel (index := index) hlt hplt hpx hl hna hpos
  obtain ⟨hip, hdw, hdo, hd⟩ := linkPointers_dict w (index := index) hlt hpx hl hr hrlt hp hna
  have hrx : r ≠ x := by rintro rfl; exact hna (hp.anc w.skel)
  unfold linkRoot
  simp only [hpos, ne_eq, not_true_eq_false, if_false]
  set h2 := (h.linkPointers p x index).addSizes p (h.size x) with hh2
  -- fields of `h2`
  have f_iop : h2.iop = h.iop := by rw [h2eq]; rfl
  have f_dicts : h2.dicts = (h.linkPointers p x index).dicts := by rw [h2eq]
  have f_nd : h2.nextDict = h.nextDict := by rw [h2eq]; rfl
  have f_fix : h2.fixes = h.fixes := by rw [h2eq]; rfl
  have f_ii : h2.inInit = h.inInit := by rw [h2eq]; rfl
  have f_id : h2.inited = h.inited := by rw [h2eq]; rfl
  have hr2 : h2.parent r = none := by
    rw [show h2.parent r = h.parent r from i2.parent_ne r hrx]; exact hr
  have hra2 : Anc h2.toGraph r p := i2.anc_p.mpr hra
  have hhigh : h2.toGraph.highest p = r := s2.highest_eq hr2 hra2
  have hhigh0 : h.toGraph.highest p = r := w.skel.highest_eq hr hra
  have hn3 := notify_eq s2 p
  have s3 : Skel (h2.notifyParentChange p).toGraph := by rw [hn3]; exact s2
  have e3 : (h2.notifyParentChange p).toGraph = h2.toGraph := by rw [hn3]; rfl
  -- the branch in which `p` is the root and nothing is reconnected
  have caseA : h.parent p = none → (h.inInit p = true ∨ h.inited p = none ∨ h.inited p = some false) →
      WF (h2.notifyParentChange p) ∧ ∀ y, y < h.next → ¬ Anc h.toGraph y p → ∀ t,
        (h2.notifyParentChange p).constraints y t = h.constraints y t := by
    intro hpp hflag
    have hpr : p = r := ((Graph.anc_root hpp).mp hra).symm
    subst hpr
    have ho : o = 0 := w.skel.at_self hp
    have hbase := (w.root p hrlt hr).1
    rw [hn3]
    refine wf_of_ins w (r := p) (o := o) i2 s2 hlt hr hrlt hp ?_ ?_ ?_ ?_ ?_ ?_ ?_ ?_ ?_ ?_ ?_
    · intro y ha hne
      show (if y ∈ h2.toGraph.below p then _ else _) = _
      rw [if_pos (s2.mem_below.mpr ⟨hne, ha⟩), f_iop, hbase]; rfl
    · intro y hy
      show (if y ∈ h2.toGraph.below p then _ else _) = _
      rw [if_neg (fun hm => hy ⟨(s2.mem_below.mp hm).2, (s2.mem_below.mp hm).1⟩), f_iop]
    · exact f_nd
    · intro t j
      show j ∈ lookup (h2.dicts _) t ↔ _
      rw [f_dicts]; exact hd t j
    · show IndexOps.WF (h2.dicts _); rw [f_dicts]; exact hdw
    · intro e he; show h2.dicts e = _; rw [f_dicts]; exact hdo e he
    · exact f_ii
    · intro y _; show h2.inited y = _; rw [f_id]
    · intro y hy
      show (if y ∈ h2.toGraph.below p then _ else _) = _
      rw [if_neg (fun hm => hy (s2.mem_below.mp hm).2), f_fix]
    · intro _ m hmm
      have hmm : (if p ∈ h2.toGraph.below p then none else h2.fixes p) = some m := hmm
      rw [if_neg (fun hm => (s2.mem_below.mp hm).1 rfl), f_fix] at hmm
      have hs : h2.size p = h.size p + h.size x := i2.size_anc p .refl
      obtain ⟨h3, h4⟩ := w.mask p hrlt hr hl m hmm
      show m.length ≤ h2.size p ∧ (m.length = h2.size p →
        m = maskOf (h2.size p) (lookup (h2.dicts (h.iop p).1) .fixed))
      rw [hs]
      refine ⟨by omega, fun h5 => ?_⟩
      have hx0 : h.size x = 0 := by omega
      rw [hx0] at h5 ⊢
      rw [Nat.add_zero] at h5 ⊢
      rw [h4 h5]
      unfold maskOf
      apply List.map_congr_left
      intro k _
      have : k ∈ lookup (h2.dicts (h.iop p).1) .fixed ↔ k ∈ lookup (h.dicts (h.iop p).1) .fixed := by
        rw [f_dicts, hd, hx0]
        constructor
        · rintro (h6 | h6 | h6)
          · exact h6.2
          · simpa using h6.2
          · omega
        · intro h6
          by_cases h7 : k < o + h.toGraph.sizeSum ((h.kids p).take (insertPos (h.kids p) index))
          · exact .inl ⟨h7, h6⟩
          · exact .inr (.inl ⟨by omega, by simpa using h6⟩)
      rw [decide_eq_decide]; exact not_congr this.symm
    · intro h4 h5
      have h4 : h2.inInit p = false := h4
      have h5 : h2.inited p = some true := h5
      rw [f_ii] at h4
      rw [f_id] at h5
      rcases hflag with h6 | h6 | h6
      · rw [h4] at h6; cases h6
      · rw [h5] at h6; cases h6
      · rw [h5] at h6; cases h6
  -- the branch that reconnects the whole hierarchy
  have caseB : WF ((((h2.notifyParentChange p).connect r).notifyParentChange r).connectFixes r) ∧
      Ins h.toGraph ((((h2.notifyParentChange p).connect r).notifyParentChange r).connectFixes
        r).toGraph p x
      ((h.kids p).take (insertPos (h.kids p) index)) ((h.kids p).drop (insertPos (h.kids p) index)) ∧
      ∀ y, y < h.next → ¬ Anc h.toGraph y p → ∀ t,
        ((((h2.notifyParentChange p).connect r).notifyParentChange r).connectFixes r).constraints y t =
          h.constraints y t := by
    have hbase := (w.root r hrlt hr).1
    rw [connect_eq s3 r]
    set h4 : Heap T := { h2.notifyParentChange p with
      inited := fun y => if y ∈ (h2.notifyParentChange p).toGraph.subtree r then some true
        else (h2.notifyParentChange p).inited y } with hh4
    have e4 : h4.toGraph = h2.toGraph := e3
    have s4 : Skel h4.toGraph := by rw [e4]; exact s2
    rw [notify_eq s4 r]
    set h5 := h4.setViews r (h4.toGraph.below r) with hh5
    have hbel : r ∉ h4.toGraph.below r := fun hm => (s4.mem_below.mp hm).1 rfl
    have hrp : r ∉ h2.toGraph.below p := by
      intro hm
      have := s2.mem_below.mp hm
      exact this.1 ((Graph.anc_root hr2).mp this.2).symm
    have iop4r : h4.iop r = h.iop r := by
      show (h2.notifyParentChange p).iop r = _
      rw [hn3]
      show (if r ∈ h2.toGraph.below p then _ else _) = _
      rw [if_neg hrp, f_iop]
    have iop5r : h5.iop r = h.iop r := by
      show (if r ∈ h4.toGraph.below r then _ else _) = _
      rw [if_neg hbel, iop4r]
    have d5 : h5.dicts = (h.linkPointers p x index).dicts := by
      show (h2.notifyParentChange p).dicts = _
      rw [hn3]; exact f_dicts
    obtain ⟨D, hD1, hD2, hD3⟩ := connectFixes_eq h5 r (by rw [iop5r]; exact hbase)
    rw [iop5r, d5] at hD1 hD2 hD3
    rw [hD3]
    have eG : h5.toGraph = h2.toGraph := e4
    have hmem4 : ∀ y, y ∈ h4.toGraph.below r ↔ y ≠ r ∧ Anc h2.toGraph r y := by
      intro y; rw [s4.mem_below, e4]
    have hfin := wf_of_ins (h' := { h5 with
        dicts := upd (h.linkPointers p x index).dicts (h.iop r).1 D
        fixes := upd h5.fixes r
          (freshMask (h5.size r) (lookup ((h.linkPointers p x index).dicts (h.iop r).1) .fixed)) })
      w (r := r) (o := o) (p := p) (x := x)
      (A := (h.kids p).take (insertPos (h.kids p) index))
      (B := (h.kids p).drop (insertPos (h.kids p) index))
      (by show Ins h.toGraph h5.toGraph _ _ _ _; rw [eG]; exact i2)
      (by show Skel h5.toGraph; rw [eG]; exact s2) hlt hr hrlt hp ?_ ?_ ?_ ?_ ?_ ?_ ?_ ?_ ?_ ?_ ?_
    · refine ⟨hfin.1, ?_, hfin.2⟩
      show Ins h.toGraph h5.toGraph _ _ _ _; rw [eG]; exact i2
    · intro y ha hne
      have ha : Anc h5.toGraph r y := ha
      rw [eG] at ha
      show (if y ∈ h4.toGraph.below r then _ else _) = _
      rw [if_pos ((hmem4 y).mpr ⟨hne, ha⟩), iop4r, hbase]; rfl
    · intro y hy
      have hy : ¬ (Anc h5.toGraph r y ∧ y ≠ r) := hy
      rw [eG] at hy
      show (if y ∈ h4.toGraph.below r then _ else _) = _
      rw [if_neg (fun hm => hy ⟨((hmem4 y).mp hm).2, ((hmem4 y).mp hm).1⟩)]
      show (h2.notifyParentChange p).iop y = _
      rw [hn3]
      show (if y ∈ h2.toGraph.below p then _ else _) = _
      rw [if_neg ?_, f_iop]
      intro hm
      have h6 := s2.mem_below.mp hm
      refine hy ⟨hra2.trans h6.2, ?_⟩
      rintro rfl
      exact hrp hm
    · show (h2.notifyParentChange p).nextDict = _
      rw [hn3]; exact f_nd
    · intro t j
      show j ∈ lookup (upd _ _ D _) t ↔ _
      rw [upd_same, hD1]; exact hd t j
    · show IndexOps.WF (upd _ _ D _)
      rw [upd_same]; exact hD2 hdw
    · intro e he
      show upd _ _ D e = _
      rw [upd_ne _ _ he]; exact hdo e he
    · show (h2.notifyParentChange p).inInit = _
      rw [hn3]; exact f_ii
    · intro y hy
      have hy : ¬ Anc h5.toGraph r y := hy
      rw [eG] at hy
      show (if y ∈ (h2.notifyParentChange p).toGraph.subtree r then _ else _) = _
      rw [if_neg (fun hm => hy (by rw [s3.mem_subtree, e3] at hm; exact hm)), hn3]
      show h2.inited y = _
      rw [f_id]
    · intro y hy
      have hy : ¬ Anc h5.toGraph r y := hy
      rw [eG] at hy
      have hyr : y ≠ r := by rintro rfl; exact hy .refl
      show upd h5.fixes r _ y = _
      rw [upd_ne _ _ hyr]
      show (if y ∈ h4.toGraph.below r then _ else _) = _
      rw [if_neg (fun hm => hy ((hmem4 y).mp hm).2)]
      show (h2.notifyParentChange p).fixes y = _
      rw [hn3]
      show (if y ∈ h2.toGraph.below p then _ else _) = _
      rw [if_neg (fun hm => hy (hra2.trans (s2.mem_below.mp hm).2)), f_fix]
    · intro _ m hmm
      have hmm : upd h5.fixes r _ r = some m := hmm
      rw [upd_same] at hmm
      show m.length ≤ h5.size r ∧ (m.length = h5.size r →
        m = maskOf (h5.size r) (lookup (upd _ (h.iop r).1 D (h.iop r).1) .fixed))
      rw [upd_same, hD1]
      unfold freshMask at hmm
      split at hmm
      · cases hmm
        exact ⟨by simp [maskOf], fun _ => rfl⟩
      · cases hmm
    · intro _ _
      show (upd h5.fixes r _ r = none → lookup (upd _ (h.iop r).1 D (h.iop r).1) .fixed = []) ∧
        ∀ m, upd h5.fixes r _ r = some m → m.length = h5.size r
      rw [upd_same, upd_same, hD1]
      unfold freshMask
      split
      · refine ⟨fun h6 => (by cases h6), fun m hmm => ?_⟩
        cases hmm; simp [maskOf]
      · rename_i h6
        exact ⟨fun _ => not_not.mp h6, fun m hmm => (by cases hmm)⟩
  have hi3 : (h2.notifyParentChange p).inInit = h.inInit := by rw [hn3]; exact f_ii
  have hd3 : (h2.notifyParentChange p).inited = h.inited := by rw [hn3]; exact f_id
  have insA : Ins h.toGraph (h2.notifyParentChange p).toGraph p x
      ((h.kids p).take (insertPos (h.kids p) index))
      ((h.kids p).drop (insertPos (h.kids p) index)) := by rw [e3]; exact i2
  by_cases hii : h.inInit p = true
  · rw [hi3, if_pos hii]
    rcases hready with hroot | ⟨hc, _⟩
    · have := caseA hroot (.inl hii)
      exact ⟨this.1, insA, this.2⟩
    · rw [hc] at hii; cases hii
  · rw [hi3, if_neg hii]
    rw [e3, hhigh]
    cases hfl : (h2.notifyParentChange p).inited r with
    | none =>
      rw [hd3] at hfl
      rcases hready with hroot | ⟨_, hc⟩
      · have hpr : p = r := ((Graph.anc_root hroot).mp hra).symm
        have := caseA hroot (.inr (.inl (by rw [hpr]; exact hfl)))
        exact ⟨this.1, insA, this.2⟩
      · rw [hhigh0, hfl] at hc; cases hc
    | some b =>
      cases b with
      | false =>
        rw [hd3] at hfl
        rcases hready with hroot | ⟨_, hc⟩
        · have hpr : p = r := ((Graph.anc_root hroot).mp hra).symm
          have := caseA hroot (.inr (.inr (by rw [hpr]; exact hfl)))
          exact ⟨this.1, insA, this.2⟩
        · rw [hhigh0, hfl] at hc; cases hc
      | true => exact caseB

end Heap

end Paramz.Hier
