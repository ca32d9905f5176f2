import Verif.Hier.Link

/-!
# Unlinking keeps the state well formed and every parameter's constraints
-/

set_option linter.unusedSectionVars false

namespace Paramz.Hier

open IndexOps (Arr Dict Iop lookup)
open Graph (Anc At Skel Sized Ins)

namespace Heap

variable {T : Type} [DecidableEq T]

/-- A heap that arises by taking the tree of `x` out from below `q`. -/
theorem wf_of_del {h h' : Heap T} (w : WF h) {q x r o : Nat} {A B : List Id}
    (i : Ins h'.toGraph h.toGraph q x A B) (s' : Skel h'.toGraph)
    (hxlt : x < h.next) (hr : h.parent r = none) (hrlt : r < h.next) (hq : At h'.toGraph r q o)
    (hin : ∀ y, Anc h'.toGraph r y → y ≠ r →
      h'.iop y = ((h.iop r).1, .view .base (h'.toGraph.offsetFor r y) (h'.size y)))
    (hx : h'.iop x = (h.nextDict, .base))
    (hinx : ∀ y, Anc h'.toGraph x y → y ≠ x →
      h'.iop y = (h.nextDict, .view .base (h'.toGraph.offsetFor x y) (h'.size y)))
    (hout : ∀ y, ¬ (Anc h'.toGraph r y ∧ y ≠ r) → ¬ Anc h'.toGraph x y → h'.iop y = h.iop y)
    (hnd : h'.nextDict = h.nextDict + 1)
    (hd : ∀ t j, j ∈ lookup (h'.dicts (h.iop r).1) t ↔
      (j < o + h'.toGraph.sizeSum A ∧ j ∈ lookup (h.dicts (h.iop r).1) t) ∨
      (o + h'.toGraph.sizeSum A ≤ j ∧ j + h'.size x ∈ lookup (h.dicts (h.iop r).1) t))
    (hdx : ∀ t j, j ∈ lookup (h'.dicts h.nextDict) t ↔
      j < h'.size x ∧ j + (o + h'.toGraph.sizeSum A) ∈ lookup (h.dicts (h.iop r).1) t)
    (hdw : IndexOps.WF (h'.dicts (h.iop r).1))
    (hdwx : IndexOps.WF (h'.dicts h.nextDict))
    (hdo : ∀ e, e ≠ (h.iop r).1 → e ≠ h.nextDict → h'.dicts e = h.dicts e)
    (hii : h'.inInit = h.inInit)
    (hid : ∀ y, ¬ Anc h'.toGraph r y → ¬ Anc h'.toGraph x y → h'.inited y = h.inited y)
    (hfo : ∀ y, ¬ Anc h'.toGraph r y → ¬ Anc h'.toGraph x y → h'.fixes y = h.fixes y)
    (hm : h'.fixes r = freshMask (h'.size r) (lookup (h'.dicts (h.iop r).1) .fixed))
    (hmx : h'.fixes x = freshMask (h'.size x) (lookup (h'.dicts h.nextDict) .fixed)) :
    WF h' ∧ ∀ y, y < h.next → ¬ Anc h.toGraph y q → ∀ t,
      h'.constraints y t = h.constraints y t := by
  have hnx : h.next = h'.next := i.next
  have hrx : r ≠ x := by rintro rfl; exact i.notanc (hq.anc s')
  have hr' : h'.parent r = none := by
    rw [← show h.parent r = h'.parent r from i.parent_ne r hrx]; exact hr
  have hx' : h'.parent x = none := i.root
  have hrdlt := (w.root r hrlt hr).2
  have z' : Sized h'.toGraph := (i.sized_iff s').mp w.sized
  have hnxr : ¬ Anc h'.toGraph x r := fun ha => hrx ((Graph.anc_root hr').mp ha).symm
  have hiopr : h'.iop r = h.iop r := hout r (fun h => h.2 rfl) hnxr
  have hsr : h.size r = h'.size r + h'.size x := i.size_anc r (hq.anc s')
  have hroots : ∀ p, h'.parent p = none → p ≠ x → h.parent p = none := by
    intro p hp hpx
    rw [show h.parent p = h'.parent p from i.parent_ne p hpx]; exact hp
  have hnr : ∀ p, h'.parent p = none → p ≠ r → ∀ y, Anc h'.toGraph p y → ¬ Anc h'.toGraph r y :=
    fun p hp hpr y h1 h2 => hpr (Graph.root_unique hp hr' h1 h2)
  have hnx' : ∀ p, h'.parent p = none → p ≠ x → ∀ y, Anc h'.toGraph p y → ¬ Anc h'.toGraph x y :=
    fun p hp hpx y h1 h2 => hpx (Graph.root_unique hp hx' h1 h2)
  have hiopq : ∀ p, h'.parent p = none → p ≠ x → h'.iop p = h.iop p := by
    intro p hp hpx
    refine hout p ?_ (hnx' p hp hpx p .refl)
    rintro ⟨h1, h2⟩
    exact h2 (Graph.root_unique hp hr' .refl h1)
  have hdq : ∀ p, p < h'.next → h'.parent p = none → p ≠ r → p ≠ x →
      h'.dicts (h'.iop p).1 = h.dicts (h.iop p).1 := by
    intro p hlt hp hpr hpx
    rw [hiopq p hp hpx]
    rw [← hnx] at hlt
    apply hdo
    · intro he
      exact hpr (w.inj p r hlt hrlt (hroots p hp hpx) hr he)
    · intro he
      have := (w.root p hlt (hroots p hp hpx)).2
      omega
  have hsq : ∀ p, h'.parent p = none → p ≠ r → h.size p = h'.size p := by
    intro p hp hpr
    apply i.size_not
    intro ha
    exact hpr (Graph.root_unique hp hr' ha (hq.anc s'))
  have hsp : o + h'.toGraph.sizeSum A ≤ h'.size r := by
    have h1 := hq.window s' z'
    have h2 := z' q i.node
    rw [i.kids_p, Graph.sizeSum_append] at h2
    have h3 : h'.toGraph.size q = h'.size q := rfl
    have h4 : h'.toGraph.size r = h'.size r := rfl
    omega
  have wf' : WF h' := by
    constructor
    · exact s'
    · exact z'
    · intro p hlt hp
      by_cases hpx : p = x
      · subst hpx; rw [hx, hnd]; exact ⟨rfl, by simp⟩
      · rw [hiopq p hp hpx, hnd]
        rw [← hnx] at hlt
        have := w.root p hlt (hroots p hp hpx)
        exact ⟨this.1, by omega⟩
    · intro p p' hlt hlt' hp hp' he
      rw [← hnx] at hlt hlt'
      by_cases hpx : p = x
      · by_cases hpx' : p' = x
        · rw [hpx, hpx']
        · subst hpx
          rw [hx, hiopq p' hp' hpx'] at he
          have := (w.root p' hlt' (hroots p' hp' hpx')).2
          simp only at he
          omega
      · by_cases hpx' : p' = x
        · subst hpx'
          rw [hx, hiopq p hp hpx] at he
          have := (w.root p hlt (hroots p hp hpx)).2
          simp only at he
          omega
        · rw [hiopq p hp hpx, hiopq p' hp' hpx'] at he
          exact w.inj p p' hlt hlt' (hroots p hp hpx) (hroots p' hp' hpx') he
    · intro p y n hlt hp ha hne
      have hanc := ha.anc s'
      by_cases hpr : p = r
      · subst hpr; rw [hin y hanc hne, hiopr, s'.offsetFor_of_root hp ha]
      · by_cases hpx : p = x
        · subst hpx; rw [hinx y hanc hne, hx, s'.offsetFor_of_root hp ha]
        · have h1 := hnr p hp hpr y hanc
          rw [hout y (fun h => h1 h.1) (hnx' p hp hpx y hanc), hiopq p hp hpx]
          have hpq : ¬ Anc h'.toGraph p q := fun h4 =>
            hpr (Graph.root_unique hp hr' h4 (hq.anc s'))
          have h2 := i.at_other s' hpq ha
          rw [← hnx] at hlt
          rw [w.view p y n hlt (hroots p hp hpx) h2 hne]
          have : h.size y = h'.size y := i.size_not y (fun h4 => hpq (hanc.trans h4))
          rw [this]
    · intro p hlt hp
      by_cases hpr : p = r
      · subst hpr; rw [hiopr]; exact hdw
      · by_cases hpx : p = x
        · subst hpx; rw [hx]; exact hdwx
        · rw [hdq p hlt hp hpr hpx]
          rw [← hnx] at hlt
          exact w.dict p hlt (hroots p hp hpx)
    · intro p hlt hp t j hj
      by_cases hpr : p = r
      · subst hpr
        rw [hiopr, hd] at hj
        rcases hj with hj | hj
        · omega
        · have := w.bound p hrlt hr t _ hj.2
          omega
      · by_cases hpx : p = x
        · subst hpx
          rw [hx, hdx] at hj
          exact hj.1
        · rw [hdq p hlt hp hpr hpx] at hj
          rw [← hsq p hp hpr]
          rw [← hnx] at hlt
          exact w.bound p hlt (hroots p hp hpx) t j hj
    · intro p hlt hp t u j h1 h2
      by_cases hpr : p = r
      · subst hpr
        rw [hiopr, hd] at h1 h2
        rcases h1 with h1 | h1 <;> rcases h2 with h2 | h2
        · exact w.single p hrlt hr t u j h1.2 h2.2
        · omega
        · omega
        · exact w.single p hrlt hr t u _ h1.2 h2.2
      · by_cases hpx : p = x
        · subst hpx
          rw [hx, hdx] at h1 h2
          exact w.single r hrlt hr t u _ h1.2 h2.2
        · rw [hdq p hlt hp hpr hpx] at h1 h2
          rw [← hnx] at hlt
          exact w.single p hlt (hroots p hp hpx) t u j h1 h2
    · intro p hlt hp hl m hmm
      by_cases hpr : p = r
      · subst hpr
        rw [hm, freshMask] at hmm
        rw [hiopr]
        split at hmm
        · cases hmm; exact ⟨by simp [maskOf], fun _ => rfl⟩
        · cases hmm
      · by_cases hpx : p = x
        · subst hpx
          rw [hmx, freshMask] at hmm
          rw [hx]
          split at hmm
          · cases hmm; exact ⟨by simp [maskOf], fun _ => rfl⟩
          · cases hmm
        · rw [hfo p (hnr p hp hpr p .refl) (hnx' p hp hpx p .refl)] at hmm
          rw [hdq p hlt hp hpr hpx, ← hsq p hp hpr]
          rw [← hnx] at hlt
          rw [← show h.leaf = h'.leaf from i.leaf] at hl
          exact w.mask p hlt (hroots p hp hpx) hl m hmm
    · intro p hlt hp hl hi1 hi2
      by_cases hpr : p = r
      · subst hpr
        rw [hm, hiopr]
        unfold freshMask
        split
        · exact ⟨fun h => (by cases h), fun m hmm => by cases hmm; simp [maskOf]⟩
        · rename_i h6
          exact ⟨fun _ => not_not.mp h6, fun m hmm => (by cases hmm)⟩
      · by_cases hpx : p = x
        · subst hpx
          rw [hmx, hx]
          unfold freshMask
          split
          · exact ⟨fun h => (by cases h), fun m hmm => by cases hmm; simp [maskOf]⟩
          · rename_i h6
            exact ⟨fun _ => not_not.mp h6, fun m hmm => (by cases hmm)⟩
        · have e1 := hnr p hp hpr p .refl
          have e2 := hnx' p hp hpx p .refl
          rw [hfo p e1 e2, hdq p hlt hp hpr hpx, ← hsq p hp hpr]
          rw [← hnx] at hlt
          rw [← show h.leaf = h'.leaf from i.leaf] at hl
          rw [hii] at hi1
          rw [hid p e1 e2] at hi2
          exact w.ready p hlt (hroots p hp hpx) hl hi1 hi2
  refine ⟨wf', fun y hy hyq t => ?_⟩
  have hyq' : ¬ Anc h'.toGraph y q := fun ha => hyq (i.anc_mono ha)
  refine (ins_constraints wf' w i (by rw [← hnx]; exact hxlt) hr' (by rw [← hnx]; exact hrlt) hq
    ?_ ?_ (by rw [← hnx]; exact hy) hyq' t).symm
  · intro t j
    rw [hiopr, hx, hd, hd, hdx]
    constructor
    · intro hj
      by_cases h1 : j < o + h'.toGraph.sizeSum A
      · exact .inl ⟨h1, .inl ⟨h1, hj⟩⟩
      · by_cases h2 : o + h'.toGraph.sizeSum A + h'.size x ≤ j
        · refine .inr (.inl ⟨h2, .inr ⟨by omega, ?_⟩⟩)
          convert hj using 1; omega
        · refine .inr (.inr ⟨by omega, by omega, by omega, ?_⟩)
          convert hj using 1; omega
    · rintro (⟨h1, h2 | h2⟩ | ⟨h1, h2 | h2⟩ | ⟨h1, h2, h3, h4⟩)
      · exact h2.2
      · omega
      · omega
      · convert h2.2 using 1; omega
      · convert h4 using 1; omega
  · intro p hlt hp hpr hpx t
    rw [hdq p hlt hp hpr hpx]

/-- Pointers and sizes after unlinking. -/
def unlinkGraph (h : Heap T) (q x : Id) : Graph :=
  { h.toGraph with
    parent := upd h.parent x none
    pidx := fun c => if c ∈ (h.kids q).eraseIdx (h.pidx x)
      then ((h.kids q).eraseIdx (h.pidx x)).idxOf c else h.pidx c
    kids := upd h.kids q ((h.kids q).eraseIdx (h.pidx x))
    size := fun y => if y ∈ h.toGraph.upwards q then h.size y - h.size x else h.size y }

theorem unlinkGraph_ins {h : Heap T} (w : WF h) {q x : Id} {A B : List Id}
    (hk : h.kids q = A ++ x :: B) :
    Ins (h.unlinkGraph q x) h.toGraph q x A B ∧ Skel (h.unlinkGraph q x) ∧
    (h.kids q).eraseIdx (h.pidx x) = A ++ B ∧ (h.kids q).take (h.pidx x) = A := by
  have s := w.skel
  have hpar : h.parent x = some q := s.parent_of hk
  have hidx : h.pidx x = A.length := by
    apply s.pidx q; rw [hk]; simp
  have herase : (h.kids q).eraseIdx (h.pidx x) = A ++ B := by
    rw [hidx, hk]
    simp [List.eraseIdx_append_of_length_le]
  have hxq : ¬ Anc h.toGraph x q := s.not_anc_parent hpar
  have hparne : ∀ y, y ≠ x → h.parent y = (h.unlinkGraph q x).parent y := by
    intro y hy; simp [unlinkGraph, upd, hy]
  have hsub : ∀ y z, Anc (h.unlinkGraph q x) y z → Anc h.toGraph y z := by
    intro y z h1
    generalize hG : h.unlinkGraph q x = G at h1
    induction h1 with
    | refl => exact .refl
    | @step p c hp hc ih =>
      subst hG
      have hcx : c ≠ x := by
        rintro rfl
        simp [unlinkGraph] at hc
      rw [← hparne c hcx] at hc
      exact .step ih hc
  have hanc : ∀ y, Anc (h.unlinkGraph q x) y q ↔ Anc h.toGraph y q := by
    intro y
    constructor
    · exact hsub y q
    · intro h1
      refine Graph.anc_congr (fun z hz => ?_) h1
      have hzx : z ≠ x := by rintro rfl; exact hxq hz
      exact (hparne z hzx).symm
  have hnd := s.nodup q
  rw [hk, List.nodup_middle, List.nodup_cons] at hnd
  have hsx : (h.unlinkGraph q x).size x = h.size x := by
    simp only [unlinkGraph]
    rw [if_neg (fun hm => hxq (s.mem_upwards.mp hm))]
  have hge : ∀ y, Anc h.toGraph y q → h.size x ≤ h.size y := by
    intro y hy
    obtain ⟨m, hm⟩ := s.exists_at (hy.step hpar)
    have := hm.window s w.sized
    have e1 : h.toGraph.size x = h.size x := rfl
    have e2 : h.toGraph.size y = h.size y := rfl
    omega
  have i : Ins (h.unlinkGraph q x) h.toGraph q x A B := by
    constructor
    · rfl
    · rfl
    · exact s.kids_not_leaf hpar
    · simp only [unlinkGraph, upd_same]; exact herase
    · exact hk
    · intro y hy; simp [unlinkGraph, upd, hy]
    · simp [unlinkGraph]
    · exact hpar
    · exact hparne
    · exact fun ha => hxq ((hanc x).mp ha)
    · intro y hy
      rw [hsx]
      have h1 := (hanc y).mp hy
      have := hge y h1
      simp only [unlinkGraph]
      rw [if_pos (s.mem_upwards.mpr h1)]
      have e2 : h.toGraph.size y = h.size y := rfl
      omega
    · intro y hy
      simp only [unlinkGraph]
      rw [if_neg (fun hm => hy ((hanc y).mpr (s.mem_upwards.mp hm)))]
  refine ⟨i, i.skel s ?_, herase, ?_⟩
  · intro p j c hc
    simp only [unlinkGraph] at hc ⊢
    by_cases hp : p = q
    · subst hp
      rw [upd_same] at hc
      have hmem := List.mem_of_getElem? hc
      rw [if_pos hmem]
      have hnd' : ((h.kids p).eraseIdx (h.pidx x)).Nodup := by rw [herase]; exact hnd.2
      obtain ⟨hlt, he⟩ := List.getElem?_eq_some_iff.mp hc
      rw [← he]
      exact hnd'.idxOf_getElem j hlt
    · rw [upd_ne _ _ hp] at hc
      have hmem := List.mem_of_getElem? hc
      have hnot : c ∉ (h.kids q).eraseIdx (h.pidx x) := by
        intro hm
        have e1 := (s.mem_iff c q).mp (List.mem_of_mem_eraseIdx hm)
        have e2 := (s.mem_iff c p).mp hmem
        rw [e1] at e2; exact hp (Option.some.inj e2).symm
      rw [if_neg hnot]
      exact s.pidx p j c hc
  · rw [hidx, hk]; simp

/-- Constraints kept by the unlinked parameter. -/
theorem mem_copy (v : Iop) {d : Dict (Con T)} (hd : IndexOps.WF d) (t : Con T) (j : Nat) :
    j ∈ lookup (v.copy d) t ↔ j ∈ v.get d t := by
  have he : v.copy d = Iop.base.update [] (v.items d) 0 := by
    unfold Iop.copy IndexOps.ofItems Iop.update
    simp only [Iop.add, Nat.add_zero, List.map_id']
  rw [he, Iop.mem_lookup_update]
  simp only [lookup, List.not_mem_nil, false_or, Iop.mem_items v hd.keys]
  constructor
  · rintro ⟨a, ⟨rfl, _⟩, k, hk, rfl⟩
    simpa [Iop.offset, IndexOps.Spec.offset] using hk
  · intro hj
    exact ⟨_, ⟨rfl, List.ne_nil_of_mem hj⟩, j, hj, by simp [Iop.offset, IndexOps.Spec.offset]⟩

theorem copy_wf (v : Iop) (d : Dict (Con T)) : IndexOps.WF (v.copy d) := by
  have he : v.copy d = Iop.base.update [] (v.items d) 0 := by
    unfold Iop.copy IndexOps.ofItems Iop.update
    simp only [Iop.add, Nat.add_zero, List.map_id']
  rw [he]
  exact Iop.update_wf _ _ _ IndexOps.WF.nil

/-- Clearing through a window removes the window. -/
theorem mem_clear_view {d : Dict (Con T)} (hd : IndexOps.WF d) (o n : Nat) (t : Con T) (j : Nat) :
    j ∈ lookup ((Iop.view .base o n).clear d) t ↔ j ∈ lookup d t ∧ ¬ (o ≤ j ∧ j < o + n) := by
  simp only [Iop.clear]
  rw [Iop.lookup_foldl_remove _ _ _ (Iop.items_keys_nodup _ hd.keys)]
  refine and_congr_right (fun hj => not_congr ?_)
  simp only [Iop.mem_items _ hd.keys, Iop.offset, IndexOps.Spec.offset, Nat.zero_add]
  constructor
  · rintro ⟨a, ⟨rfl, _⟩, k, hk, rfl⟩
    rw [Iop.get_view, Iop.mem_filterIndex] at hk
    omega
  · rintro ⟨h1, h2⟩
    have hm : j - o ∈ (Iop.view .base o n).get d t := by
      rw [Iop.get_view, Iop.mem_filterIndex, Iop.get_base]
      refine ⟨by omega, ?_⟩
      convert hj using 1; omega
    exact ⟨_, ⟨rfl, List.ne_nil_of_mem hm⟩, j - o, hm, by omega⟩

/-! ### The steps of unlinking -/

theorem subtreeF_congr {g g' : Graph} (hk : g'.kids = g.kids) : ∀ n x,
    Graph.subtreeF n g' x = Graph.subtreeF n g x
  | 0, _ => rfl
  | n + 1, x => by
    unfold Graph.subtreeF
    rw [hk]
    congr 2
    funext c
    exact subtreeF_congr hk n c

theorem subtree_congr {g g' : Graph} (hn : g'.next = g.next) (hk : g'.kids = g.kids) (x : Id) :
    g'.subtree x = g.subtree x := by
  unfold Graph.subtree Graph.fuel
  rw [hn]
  exact subtreeF_congr hk _ x

theorem at_congr {g g' : Graph} (s : Skel g) (hk : g'.kids = g.kids) {r y n : Nat}
    (hs : ∀ z, Anc g r z → z ≠ r → g'.size z = g.size z) (ha : At g r y n) : At g' r y n := by
  induction ha with
  | refl => exact .refl
  | @step p c n A B h1 hkk ih =>
    have he : g'.sizeSum A = g.sizeSum A := by
      unfold Graph.sizeSum
      congr 1
      apply List.map_congr_left
      intro z hz
      have hp : g.parent z = some p := (s.mem_iff z p).mp (by rw [hkk]; simp [hz])
      refine hs z ((h1.anc s).step hp) ?_
      rintro rfl
      exact s.not_anc_parent hp (h1.anc s)
    rw [← he]
    exact .step ih (by rw [hk]; exact hkk)

/-- `_disconnect_parent`. -/
theorem disconnect_eq {h : Heap T} {x : Id} (G : Graph)
    (hG : G = { h.toGraph with parent := upd h.parent x none }) (s : Skel G)
    (hdw : IndexOps.WF (h.dicts (h.iop x).1)) :
    ∃ (D : Dict (Con T)) (F : Id → Option (List Bool)) (I : Id → Nat × Iop),
      (∀ t j, j ∈ lookup D t ↔ j ∈ h.constraints x t) ∧ IndexOps.WF D ∧
      (∀ y, ¬ Anc G x y → F y = h.fixes y) ∧
      F x = freshMask (h.size x) (lookup D .fixed) ∧
      (∀ y, ¬ Anc G x y → I y = h.iop y) ∧ I x = (h.nextDict, .base) ∧
      (∀ y, Anc G x y → y ≠ x → I y = (h.nextDict, .view .base (G.offsetFor x y) (h.size y))) ∧
      h.disconnect x = { h with
        dicts := upd (upd h.dicts (h.iop x).1 ((h.iop x).2.clear (h.dicts (h.iop x).1))) h.nextDict D
        nextDict := h.nextDict + 1
        iop := I
        fixes := F
        parent := upd h.parent x none } := by
  set h1 : Heap T := { h with
    dicts := upd (upd h.dicts (h.iop x).1 ((h.iop x).2.clear (h.dicts (h.iop x).1))) h.nextDict
      ((h.iop x).2.copy (h.dicts (h.iop x).1))
    nextDict := h.nextDict + 1
    iop := upd h.iop x (h.nextDict, .base)
    parent := upd h.parent x none } with hh1
  have hdis : h.disconnect x = (h1.connectFixes x).notifyParentChange x := rfl
  have e1 : h1.iop x = (h.nextDict, .base) := by simp [hh1]
  have e2 : h1.dicts h.nextDict = (h.iop x).2.copy (h.dicts (h.iop x).1) := by simp [hh1]
  obtain ⟨D, hD, hDw, hc⟩ := connectFixes_eq h1 x (by rw [e1])
  rw [e1] at hD hDw hc
  simp only [e2] at hD hDw hc
  have hg1 : (h1.connectFixes x).toGraph = G := by rw [hc, hG]
  have s1 : Skel (h1.connectFixes x).toGraph := by rw [hg1]; exact s
  have hn := notify_eq s1 x
  have hi : (h1.connectFixes x).iop = h1.iop := by rw [hc]
  have hf : (h1.connectFixes x).fixes = upd h.fixes x
      (freshMask (h.size x) (lookup ((h.iop x).2.copy (h.dicts (h.iop x).1)) .fixed)) := by
    rw [hc]
  have hsz : (h1.connectFixes x).size = h.size := by rw [hc]
  refine ⟨D, ((h1.connectFixes x).notifyParentChange x).fixes,
    ((h1.connectFixes x).notifyParentChange x).iop, ?_, hDw (copy_wf _ _), ?_, ?_, ?_, ?_, ?_, ?_⟩
  · intro t j; rw [hD, mem_copy _ hdw]; rfl
  · intro y hy
    have hyx : y ≠ x := by rintro rfl; exact hy .refl
    rw [hn]
    show (if y ∈ (h1.connectFixes x).toGraph.below x then _ else _) = _
    rw [if_neg (fun hm => hy (by rw [← hg1]; exact (s1.mem_below.mp hm).2)), hf, upd_ne _ _ hyx]
  · rw [hn]
    show (if x ∈ (h1.connectFixes x).toGraph.below x then _ else _) = _
    rw [if_neg (fun hm => (s1.mem_below.mp hm).1 rfl), hf, upd_same, hD]
  · intro y hy
    have hyx : y ≠ x := by rintro rfl; exact hy .refl
    rw [hn]
    show (if y ∈ (h1.connectFixes x).toGraph.below x then _ else _) = _
    rw [if_neg (fun hm => hy (by rw [← hg1]; exact (s1.mem_below.mp hm).2)), hi]
    exact upd_ne _ _ hyx
  · rw [hn]
    show (if x ∈ (h1.connectFixes x).toGraph.below x then _ else _) = _
    rw [if_neg (fun hm => (s1.mem_below.mp hm).1 rfl), hi, e1]
  · intro y hy hyx
    rw [hn]
    show (if y ∈ (h1.connectFixes x).toGraph.below x then _ else _) = _
    rw [if_pos (s1.mem_below.mpr ⟨hyx, by rw [hg1]; exact hy⟩), hi, e1, hsz, hg1]
  · have hdd : upd h1.dicts h.nextDict D =
        upd (upd h.dicts (h.iop x).1 ((h.iop x).2.clear (h.dicts (h.iop x).1))) h.nextDict D := by
      funext e
      by_cases he : e = h.nextDict
      · subst he; simp
      · simp only [hh1, upd_ne _ _ he]
    rw [hdis, hn, ← hdd]
    simp only [setViews, hc]
    rfl

/-- Reconnecting a root (the end of `unlink_parameter`, `initialize_parameter`). -/
theorem reconnect_eq {h : Heap T} (s : Skel h.toGraph) {r : Id} (hb : (h.iop r).2 = .base) :
    ∃ (D : Dict (Con T)) (F : Id → Option (List Bool)) (I : Id → Nat × Iop) (J : Id → Option Bool),
      (∀ t, lookup D t = lookup (h.dicts (h.iop r).1) t) ∧
      (IndexOps.WF (h.dicts (h.iop r).1) → IndexOps.WF D) ∧
      (∀ y, ¬ Anc h.toGraph r y → F y = h.fixes y) ∧
      F r = freshMask (h.size r) (lookup (h.dicts (h.iop r).1) .fixed) ∧
      (∀ y, ¬ (Anc h.toGraph r y ∧ y ≠ r) → I y = h.iop y) ∧
      (∀ y, Anc h.toGraph r y → y ≠ r →
        I y = ((h.iop r).1, .view .base (h.toGraph.offsetFor r y) (h.size y))) ∧
      (∀ y, ¬ Anc h.toGraph r y → J y = h.inited y) ∧
      (∀ y, Anc h.toGraph r y → J y = some true) ∧
      ((h.connect r).connectFixes r).notifyParentChange r = { h with
        dicts := upd h.dicts (h.iop r).1 D
        iop := I
        fixes := F
        inited := J } := by
  have hce := connect_eq s r
  have hi1 : (h.connect r).iop = h.iop := by rw [hce]
  have hd1 : (h.connect r).dicts = h.dicts := by rw [hce]
  obtain ⟨D, hD, hDw, hc⟩ := connectFixes_eq (h.connect r) r (by rw [hi1]; exact hb)
  rw [hi1, hd1] at hD hDw
  have hg : ((h.connect r).connectFixes r).toGraph = h.toGraph := by rw [hc, hce]
  have s1 : Skel ((h.connect r).connectFixes r).toGraph := by rw [hg]; exact s
  have hn := notify_eq s1 r
  have hi2 : ((h.connect r).connectFixes r).iop = h.iop := by rw [hc, hce]
  have hs2 : ((h.connect r).connectFixes r).size = h.size := by rw [hc, hce]
  have hf2 : ((h.connect r).connectFixes r).fixes = upd h.fixes r
      (freshMask (h.size r) (lookup (h.dicts (h.iop r).1) .fixed)) := by rw [hc, hce]
  have hb' : ∀ y, y ∈ ((h.connect r).connectFixes r).toGraph.below r ↔
      (Anc h.toGraph r y ∧ y ≠ r) := by
    intro y; rw [s1.mem_below, hg, and_comm]
  refine ⟨D, (((h.connect r).connectFixes r).notifyParentChange r).fixes,
    (((h.connect r).connectFixes r).notifyParentChange r).iop,
    (((h.connect r).connectFixes r).notifyParentChange r).inited, hD, hDw, ?_, ?_, ?_, ?_, ?_, ?_, ?_⟩
  · intro y hy
    have hyx : y ≠ r := by rintro rfl; exact hy .refl
    rw [hn]
    show (if y ∈ ((h.connect r).connectFixes r).toGraph.below r then _ else _) = _
    rw [if_neg (fun hm => hy ((hb' y).mp hm).1), hf2, upd_ne _ _ hyx]
  · rw [hn]
    show (if r ∈ ((h.connect r).connectFixes r).toGraph.below r then _ else _) = _
    rw [if_neg (fun hm => ((hb' r).mp hm).2 rfl), hf2, upd_same]
  · intro y hy
    rw [hn]
    show (if y ∈ ((h.connect r).connectFixes r).toGraph.below r then _ else _) = _
    rw [if_neg (fun hm => hy ((hb' y).mp hm)), hi2]
  · intro y hy hyr
    rw [hn]
    show (if y ∈ ((h.connect r).connectFixes r).toGraph.below r then _ else _) = _
    rw [if_pos ((hb' y).mpr ⟨hy, hyr⟩), hi2, hs2, hg, hb]
  · intro y hy
    rw [hn, hc, hce]
    show (if y ∈ h.toGraph.subtree r then _ else _) = _
    rw [if_neg (fun hm => hy (s.mem_subtree.mp hm))]
  · intro y hy
    rw [hn, hc, hce]
    show (if y ∈ h.toGraph.subtree r then _ else _) = _
    rw [if_pos (s.mem_subtree.mpr hy)]
  · rw [hn]
    simp only [setViews]
    simp only [hc]
    simp only [hce]

/-- Unlinking a child. -/
theorem unlinkChild_wf {h : Heap T} (w : WF h) {q x : Id} {A B : List Id}
    (hk : h.kids q = A ++ x :: B) :
    WF (h.unlinkChild q x) ∧
    Ins (h.unlinkChild q x).toGraph h.toGraph q x A B ∧
    (h.unlinkChild q x).inInit = h.inInit ∧
    (h.unlinkChild q x).visited = h.visited ∧
    (∀ y, Anc h.toGraph (h.toGraph.highest q) y → ¬ Anc h.toGraph x y →
      (h.unlinkChild q x).inited y = some true) ∧
    (∀ y, ¬ Anc h.toGraph (h.toGraph.highest q) y ∨ Anc h.toGraph x y →
      (h.unlinkChild q x).inited y = h.inited y) ∧
    (∀ y, y < h.next → ¬ Anc h.toGraph y q → ∀ t,
      (h.unlinkChild q x).constraints y t = h.constraints y t) := by
  obtain ⟨i, sG, herase, htake⟩ := unlinkGraph_ins w hk
  set G := h.unlinkGraph q x with hGdef
  have hpar : h.parent x = some q := w.skel.parent_of hk
  have hxlt : x < h.next := (w.skel.alloc _ _ hpar).1
  have hqlt : q < h.next := (w.skel.alloc _ _ hpar).2
  have hxq : ¬ Anc h.toGraph x q := w.skel.not_anc_parent hpar
  have hqx : q ≠ x := by rintro rfl; exact hxq .refl
  obtain ⟨r, hr, hra⟩ := w.skel.exists_root q
  have hrlt := w.skel.anc_lt hra hqlt
  have hhigh0 : h.toGraph.highest q = r := w.skel.highest_eq hr hra
  obtain ⟨o, hq⟩ := w.skel.exists_at hra
  have hraG : Anc G r q := i.anc_p.mp hra
  have hrx : r ≠ x := by rintro rfl; exact hxq hra
  have hrG : G.parent r = none := by
    rw [← show h.parent r = G.parent r from i.parent_ne r hrx]; exact hr
  obtain ⟨o', hqG⟩ := sG.exists_at hraG
  have zG : Sized G := (i.sized_iff sG).mp w.sized
  have hoo : o' = o := by
    have h1 : At h.toGraph r q o' := (i.at_tree sG zG hqG hqG).1 .refl
    exact w.skel.at_unique h1 hq
  subst hoo
  have hSA : h.toGraph.sizeSum A = G.sizeSum A := i.sum_same (i.kids_not_anc sG).1
  have hGx : G.size x = h.size x := (i.size_not x i.notanc).symm
  have hiopx : h.iop x = ((h.iop r).1, .view .base (o' + h.toGraph.sizeSum A) (h.size x)) :=
    w.view r x _ hrlt hr (hq.step hk) (Ne.symm hrx)
  have hiopq : (h.iop q).1 = (h.iop r).1 ∧ (h.iop q).2.offset = o' := by
    by_cases hqr : q = r
    · subst hqr
      refine ⟨rfl, ?_⟩
      rw [(w.root q hrlt hr).1, w.skel.at_self hq]; rfl
    · rw [w.view r q o' hrlt hr hq hqr]
      refine ⟨rfl, ?_⟩
      simp [Iop.offset, IndexOps.Spec.offset]
  have hrd := (w.root r hrlt hr).2
  have hwd := w.dict r hrlt hr
  -- the graph while sizes above `q` are still old
  let g3 : Graph := { G with size := upd h.size q (h.size q - h.size x) }
  have s3 : Skel g3 := sG.of_eq rfl rfl rfl rfl rfl
  have anc3 : ∀ y z, Anc g3 y z ↔ Anc G y z := fun y z =>
    Graph.anc_of_parent_eq (g := G) (g' := g3) rfl
  -- after the first `_connect_parameters`
  let h1 : Heap T := { h with
    size := upd h.size q (h.size q - h.size x)
    kids := upd h.kids q ((h.kids q).eraseIdx (h.pidx x)) }
  let J2 : Id → Option Bool := fun y => if y ∈ h1.toGraph.subtree q then some true else h.inited y
  have hJ2 : ∀ y, ¬ Anc G q y → J2 y = h.inited y := by
    intro y hy
    show (if y ∈ h1.toGraph.subtree q then _ else _) = _
    rw [subtree_congr (g := G) (g' := h1.toGraph) rfl rfl,
      if_neg (fun hm => hy (sG.mem_subtree.mp hm))]
  let h2 : Heap T := { h1 with pidx := G.pidx, inited := J2 }
  have e2 : h1.connect q = h2 := by
    have hp : (fun c => if c ∈ h1.kids q then some q else h1.parent c) = h.parent := by
      funext c
      split
      · rename_i hc
        simp only [h1, upd_same] at hc
        exact ((w.skel.mem_iff c q).mp (List.mem_of_mem_eraseIdx hc)).symm
      · rfl
    have hpi : (fun c => if c ∈ h1.kids q then (h1.kids q).idxOf c else h1.pidx c) = G.pidx := by
      funext c
      simp only [h1, upd_same]
      rfl
    unfold connect
    rw [hp, hpi]
  -- after `_disconnect_parent`
  obtain ⟨D3, F3, I3, hD3, hD3w, hF3, hF3x, hI3, hI3x, hI3b, e3⟩ :=
    disconnect_eq (h := h2) (x := x) g3 rfl s3 (by
      show IndexOps.WF (h.dicts (h.iop x).1)
      rw [hiopx]; exact hwd)
  have hI3q : I3 q = h.iop q := hI3 q (fun ha => i.notanc ((anc3 x q).mp ha))
  have hI3r : I3 r = h.iop r := by
    refine hI3 r (fun ha => hrx ?_)
    exact ((Graph.anc_root hrG).mp ((anc3 x r).mp ha)).symm
  let d := (h.iop r).1
  have hdne : d ≠ h.nextDict := by show (h.iop r).1 ≠ _; omega
  set h3 := h2.disconnect x with hh3
  have hg3 : h3.toGraph = g3 := by rw [e3]; rfl
  have hi3 : h3.iop = I3 := by rw [e3]
  have hdd3 : h3.dicts d = (Iop.view .base (o' + h.toGraph.sizeSum A) (h.size x)).clear (h.dicts d) := by
    rw [e3]
    show upd (upd h.dicts (h.iop x).1 ((h.iop x).2.clear (h.dicts (h.iop x).1))) h.nextDict D3 d = _
    rw [upd_ne _ _ hdne, hiopx, upd_same]
  have hdx3 : h3.dicts h.nextDict = D3 := by
    rw [e3]; exact upd_same _ _ _
  have hdo3 : ∀ e, e ≠ d → e ≠ h.nextDict → h3.dicts e = h.dicts e := by
    intro e h1' h2'
    rw [e3]
    show upd (upd h.dicts (h.iop x).1 ((h.iop x).2.clear (h.dicts (h.iop x).1))) h.nextDict D3 e = _
    rw [upd_ne _ _ h2', hiopx, upd_ne _ _ h1']
  -- after the shift
  let D4 : Dict (Con T) := (h3.iop q).2.shiftLeft (h3.dicts (h3.iop q).1)
    (h.toGraph.sizeSum ((h.kids q).take (h.pidx x))) (h.size x)
  let h4 : Heap T := { h3 with dicts := upd h3.dicts (h3.iop q).1 D4 }
  have hg4 : h4.toGraph = g3 := hg3
  have hd4 : h4.dicts = upd h3.dicts d ((h.iop q).2.shiftLeft (h3.dicts d)
      (h.toGraph.sizeSum A) (h.size x)) := by
    show upd h3.dicts (h3.iop q).1 ((h3.iop q).2.shiftLeft (h3.dicts (h3.iop q).1)
      (h.toGraph.sizeSum ((h.kids q).take (h.pidx x))) (h.size x)) = _
    rw [hi3, hI3q, hiopq.1, htake]
  -- after reconnecting `q`
  have s4 : Skel h4.toGraph := by rw [hg4]; exact s3
  have ec := connect_eq s4 q
  have s4' : Skel (h4.connect q).toGraph := by rw [ec]; exact s4
  have en := notify_eq s4' q
  set h5 := (h4.connect q).notifyParentChange q with hh5
  have hg5 : h5.toGraph = g3 := by rw [en, ec]; exact hg4
  have hg5' : (h4.connect q).toGraph = g3 := by rw [ec]; exact hg4
  have hd5 : h5.dicts = h4.dicts := by rw [en, ec]; rfl
  have hi5 : ∀ y, ¬ (Anc G q y ∧ y ≠ q) → h5.iop y = I3 y := by
    intro y hy
    rw [en]
    show (if y ∈ (h4.connect q).toGraph.below q then _ else _) = _
    rw [if_neg ?_, ec]
    · show h3.iop y = _
      rw [hi3]
    · intro hm
      have := s4'.mem_below.mp hm
      rw [hg5'] at this
      exact hy ⟨(anc3 q y).mp this.2, this.1⟩
  have hf5 : ∀ y, ¬ Anc G q y → h5.fixes y = F3 y := by
    intro y hy
    rw [en]
    show (if y ∈ (h4.connect q).toGraph.below q then _ else _) = _
    rw [if_neg ?_, ec]
    · show h3.fixes y = _
      rw [e3]
    · intro hm
      have := s4'.mem_below.mp hm
      rw [hg5'] at this
      exact hy ((anc3 q y).mp this.2)
  have hj5 : ∀ y, ¬ Anc G q y → h5.inited y = h.inited y := by
    intro y hy
    rw [en, ec]
    show (if y ∈ h4.toGraph.subtree q then _ else h3.inited y) = _
    rw [if_neg ?_, e3]
    · exact hJ2 y hy
    · intro hm
      have := s4.mem_subtree.mp hm
      rw [hg4] at this
      exact hy ((anc3 q y).mp this)
  have hn5 : h5.nextDict = h.nextDict + 1 := by
    rw [en, ec]; show h3.nextDict = _; rw [e3]
  have hii5 : h5.inInit = h.inInit := by
    rw [en, ec]; show h3.inInit = _; rw [e3]
  have hv5 : h5.visited = h.visited := by
    rw [en, ec]; show h3.visited = _; rw [e3]
  -- after the sizes above `q` are reduced
  have hpq5 : h5.parent q = h.parent q := by
    show h5.toGraph.parent q = _
    rw [hg5]; exact upd_ne _ _ hqx
  have hsz6 : ∀ y, G.size y = if y ∈ h.toGraph.upwards q then h.size y - h.size x else h.size y :=
    fun _ => rfl
  let h6 : Heap T := match h5.parent q with
    | none => h5
    | some p => h5.subSizes p (h.size x)
  have e6 : h6 = { h5 with size := G.size } := by
    show (match h5.parent q with
      | none => h5
      | some p => h5.subSizes p (h.size x)) = _
    rw [hpq5]
    have hs5 : h5.size = upd h.size q (h.size q - h.size x) := by
      show h5.toGraph.size = _
      rw [hg5]
    cases hpq : h.parent q with
    | none =>
      have : G.size = h5.size := by
        funext y
        rw [hsz6, hs5]
        by_cases hy : y = q
        · subst hy; rw [if_pos (w.skel.mem_upwards.mpr .refl), upd_same]
        · rw [if_neg (fun hm => hy ((Graph.anc_root hpq).mp (w.skel.mem_upwards.mp hm))),
            upd_ne _ _ hy]
      rw [this]
    | some p =>
      have s5 : Skel h5.toGraph := by rw [hg5]; exact s3
      simp only [subSizes]
      rw [subSizes_fold _ _ _ (s5.nodup_upwards p)]
      have : (fun y => if y ∈ h5.toGraph.upwards p then h5.size y - h.size x else h5.size y) =
          G.size := by
        funext y
        rw [hsz6, hs5]
        have hpqG : G.parent q = some p := by
          rw [← show h.parent q = G.parent q from i.parent_ne q hqx]; exact hpq
        have hup : y ∈ h5.toGraph.upwards p ↔ Anc G y p := by
          rw [s5.mem_upwards, hg5]; exact anc3 y p
        have hup' : y ∈ h.toGraph.upwards q ↔ Anc G y q := by
          rw [w.skel.mem_upwards]; exact i.anc_p
        by_cases hy : y = q
        · subst hy
          rw [if_neg (fun hm => sG.not_anc_parent hpqG (hup.mp hm)), upd_same,
            if_pos (hup'.mpr .refl)]
        · rw [upd_ne _ _ hy]
          have : y ∈ h5.toGraph.upwards p ↔ y ∈ h.toGraph.upwards q := by
            rw [hup, hup', Graph.anc_iff_of_parent hpqG]
            exact ⟨fun h => .inr h, fun h => h.resolve_left hy⟩
          simp only [this]
      rw [this]
  have hg6 : h6.toGraph = G := by
    rw [e6]
    show ({ h5.toGraph with size := G.size } : Graph) = G
    rw [hg5]
  have s6 : Skel h6.toGraph := by rw [hg6]; exact sG
  have hi6 : h6.iop = h5.iop := by rw [e6]
  have hd6 : h6.dicts = h5.dicts := by rw [e6]
  have hqbelow : ∀ y, Anc G q y → y ≠ q → y ≠ r := by
    rintro y h1' h2' rfl
    exact h2' ((Graph.anc_root hrG).mp h1').symm
  have hi6r : h6.iop r = h.iop r := by
    rw [hi6, hi5 r (fun h => hqbelow r h.1 h.2 rfl), hI3r]
  have hhigh : h6.toGraph.highest q = r := by
    rw [hg6]; exact sG.highest_eq hrG hraG
  obtain ⟨D, F, I, J, hD, hDw, hF, hFr, hI, hIb, hJ, hJr, er⟩ :=
    reconnect_eq s6 (r := r) (by rw [hi6r]; exact (w.root r hrlt hr).1)
  rw [hi6r] at hD hDw hFr hIb er
  have hfin : h.unlinkChild q x = ((h6.connect r).connectFixes r).notifyParentChange r := by
    have : h.unlinkChild q x = (fun h3 : Heap T =>
        let D4 : Dict (Con T) := (h3.iop q).2.shiftLeft (h3.dicts (h3.iop q).1)
          (h.toGraph.sizeSum ((h.kids q).take (h.pidx x))) (h.size x)
        let h4 : Heap T := { h3 with dicts := upd h3.dicts (h3.iop q).1 D4 }
        let h5 := (h4.connect q).notifyParentChange q
        let h6 : Heap T := match h5.parent q with
          | none => h5
          | some p => h5.subSizes p (h.size x)
        ((h6.connect (h6.toGraph.highest q)).connectFixes (h6.toGraph.highest q)).notifyParentChange
          (h6.toGraph.highest q)) ((h1.connect q).disconnect x) := rfl
    rw [e2] at this
    have this : h.unlinkChild q x =
        ((h6.connect (h6.toGraph.highest q)).connectFixes (h6.toGraph.highest q)).notifyParentChange
          (h6.toGraph.highest q) := this
    rw [this, hhigh]
  have hn6 : h6.nextDict = h.nextDict + 1 := by rw [e6]; exact hn5
  have hii6 : h6.inInit = h.inInit := by rw [e6]; exact hii5
  have hv6 : h6.visited = h.visited := by rw [e6]; exact hv5
  have hf6 : h6.fixes = h5.fixes := by rw [e6]
  have hj6 : h6.inited = h5.inited := by rw [e6]
  have hs6 : h6.size = G.size := by rw [e6]
  have hfin' : h.unlinkChild q x =
      Heap.mk G I (upd h6.dicts d D) (h.nextDict + 1) F h.inInit J h.visited := by
    rw [hfin, er, hg6, hn6, hii6, hv6]
  have hqr : ∀ y, ¬ Anc G r y → ¬ Anc G q y := fun y hy ha => hy (hraG.trans ha)
  have hxr : ∀ y, Anc G x y → ¬ Anc G r y := by
    intro y h1' h2'
    exact hrx (Graph.root_unique hrG i.root h2' h1')
  rw [hfin']
  rw [hg6] at hF hI hIb hJ hJr
  rw [hs6, hd6, hd5, hd4, upd_same] at hFr
  rw [hd6, hd5, hd4, upd_same] at hD hDw
  -- the dictionary of the old root
  have hcl : IndexOps.WF (h3.dicts d) := by
    rw [hdd3]; exact Iop.clear_wf _ hwd
  have hDd : ∀ t j, j ∈ lookup D t ↔
      (j < o' + G.sizeSum A ∧ j ∈ lookup (h.dicts d) t) ∨
      (o' + G.sizeSum A ≤ j ∧ j + G.size x ∈ lookup (h.dicts d) t) := by
    intro t j
    rw [hD, Iop.shiftLeft_eq, hiopq.2, IndexOps.lookup_shiftLeft hcl.keys,
      IndexOps.mem_shiftLeftArr, hdd3, mem_clear_view hwd, mem_clear_view hwd, hSA, hGx,
      Nat.add_comm (G.sizeSum A) o']
    constructor
    · rintro (⟨h1', h2', _⟩ | ⟨h1', h2', _⟩)
      · exact .inl ⟨h1', h2'⟩
      · exact .inr ⟨h1', h2'⟩
    · rintro (⟨h1', h2'⟩ | ⟨h1', h2'⟩)
      · exact .inl ⟨h1', h2', by omega⟩
      · exact .inr ⟨h1', h2', by omega⟩
  have hdfin : ∀ e, e ≠ d → upd h6.dicts d D e = h3.dicts e := by
    intro e he
    rw [upd_ne _ _ he, hd6, hd5, hd4, upd_ne _ _ he]
  have key := wf_of_del (h := h)
    (h' := Heap.mk G I (upd h6.dicts d D) (h.nextDict + 1) F h.inInit J h.visited)
    w (q := q) (x := x) (r := r) (o := o') i sG hxlt hr hrlt hqG
    (fun y h1' h2' => hIb y h1' h2')
    (by
      show I x = _
      rw [hI x (fun h => hxr x .refl h.1), hi6, hi5 x (fun h => hqr x (hxr x .refl) h.1), hI3x])
    (by
      intro y h1' h2'
      show I y = _
      rw [hI y (fun h => hxr y h1' h.1), hi6, hi5 y (fun h => hqr y (hxr y h1') h.1),
        hI3b y ((anc3 x y).mpr h1') h2']
      have hsz : ∀ z, Anc G x z → G.size z = h.size z := fun z hz =>
        (i.size_not z (fun ha => i.notanc (hz.trans ha))).symm
      have hsz3 : ∀ z, Anc G x z → h2.size z = G.size z := by
        intro z hz
        rw [hsz z hz]
        refine upd_ne _ _ ?_
        rintro rfl
        exact i.notanc hz
      obtain ⟨m, hm⟩ := sG.exists_at h1'
      have hm3 : At g3 x y m := at_congr (g := G) (g' := g3) sG rfl (fun z hz _ => hsz3 z hz) hm
      rw [s3.offsetFor_of_root i.root hm3, hsz3 y h1']
      show _ = (h.nextDict, Iop.view .base (G.offsetFor x y) (G.size y))
      rw [sG.offsetFor_of_root i.root hm])
    (by
      intro y h1' h2'
      show I y = _
      rw [hI y h1', hi6, hi5 y ?_, hI3 y (fun h => h2' ((anc3 x y).mp h))]
      · rintro ⟨h3', h4'⟩
        exact h1' ⟨hraG.trans h3', hqbelow y h3' h4'⟩)
    rfl
    (by intro t j; show j ∈ lookup (upd h6.dicts d D d) t ↔ _; rw [upd_same]; exact hDd t j)
    (by
      intro t j
      show j ∈ lookup (upd h6.dicts d D h.nextDict) t ↔ _
      rw [hdfin _ (Ne.symm hdne), hdx3, hD3]
      show j ∈ h.constraints x t ↔ j < G.size x ∧ j + (o' + G.sizeSum A) ∈ _
      rw [w.mem_constraints hrlt hr (hq.step hk), hSA, hGx])
    (by
      show IndexOps.WF (upd h6.dicts d D d)
      rw [upd_same]
      apply hDw
      rw [Iop.shiftLeft_eq]
      exact hcl.shiftLeft _ _)
    (by
      show IndexOps.WF (upd h6.dicts d D h.nextDict)
      rw [hdfin _ (Ne.symm hdne), hdx3]; exact hD3w)
    (by
      intro e h1' h2'
      show upd h6.dicts d D e = _
      rw [hdfin _ h1', hdo3 e h1' h2'])
    rfl
    (by
      intro y h1' h2'
      show J y = _
      rw [hJ y h1', hj6, hj5 y (hqr y h1')])
    (by
      intro y h1' h2'
      show F y = _
      rw [hF y h1', hf6, hf5 y (hqr y h1'), hF3 y (fun h => h2' ((anc3 x y).mp h))])
    (by
      show F r = freshMask _ (lookup (upd h6.dicts d D d) .fixed)
      rw [upd_same, hD]; exact hFr)
    (by
      show F x = freshMask _ (lookup (upd h6.dicts d D h.nextDict) .fixed)
      rw [hdfin _ (Ne.symm hdne), hdx3, hF x (hxr x .refl), hf6, hf5 x (hqr x (hxr x .refl)), hF3x]
      show freshMask (upd h.size q _ x) _ = freshMask (G.size x) _
      rw [upd_ne _ _ (Ne.symm hqx), hGx])
  refine ⟨key.1, i, rfl, rfl, ?_, ?_, key.2⟩
  · intro y h1' h2'
    rw [hhigh0] at h1'
    exact hJr y (i.anc_of h1' (fun ha => h2' (i.anc_mono ha)))
  · intro y h1'
    rw [hhigh0] at h1'
    have h2' : ¬ Anc G r y := by
      rcases h1' with h1' | h1'
      · exact fun ha => h1' (i.anc_mono ha)
      · apply hxr
        induction h1' with
        | refl => exact .refl
        | @step p c ha hpc ih =>
          refine .step ih ?_
          rw [← show h.parent c = G.parent c from i.parent_ne c ?_]
          · exact hpc
          · rintro rfl
            exact w.skel.not_anc_parent hpc ha
    show J y = _
    rw [hJ y h2', hj6, hj5 y (hqr y h2')]

end Heap

end Paramz.Hier
