import Verif.Mem.Beside

/-!
# C98, C102: programs do not disturb each other
-/

set_option linter.unusedSectionVars false

namespace Paramz.Memory

open Hier (Id Graph Heap Con upd upd_same upd_ne)
open Hier.Heap (Target LinkOK insertPos)
open Hier.Graph (Skel Sized At Anc Ins)
open Opt (Ops flattened flattened_eq)
open State

variable {V T W : Type} [DecidableEq T] {spoil spoil' : Nat → Nat → V}

/-! ### Calls beside -/

theorem beside_leaves {o : Ops V T} {F : List V → W} {g : List V → List V} {s : State V T} {P : Plan V T} (h : Path spoil s)
    (rp : Represents s P) {D : Id → Prop} (c : Closed P D) {N : Id → Notes} {m : Move V T W} (hm : m.Fits spoil s P N)
    (hb : m.Beside D) (b : Bool) : Leaves P (P.exec o F g b m).1 D := by
  have hk := rp.kids_lt h
  have stay : Leaves P P D := ⟨Nat.le_refl _, fun _ _ => rfl, fun _ _ => rfl, c.outer⟩
  have made : ∀ R, Leaves P { next := P.next + 1, row := upd P.row P.next R, kids := upd P.kids P.next [] } D := by
    intro R
    refine ⟨Nat.le_succ _, fun y hy => upd_ne _ _ (Nat.ne_of_lt (c.lt y hy)), fun y hy => upd_ne _ _ (Nat.ne_of_lt (c.lt y hy)),
      fun q z hq hz hmz => ?_⟩
    have hmz : z ∈ upd P.kids P.next [] q := hmz
    by_cases e : q = P.next
    · rw [e, upd_same] at hmz; cases hmz
    · rw [upd_ne _ _ e] at hmz
      exact c.outer q z (Nat.lt_of_le_of_ne (Nat.lt_succ_iff.mp hq) e) hz hmz
  have notin : ∀ {x : Id}, ¬ D x → ∀ y, D y → P.without x y = P.kids y := fun hx y hy =>
    List.filter_eq_self.mpr (fun z hz => decide_eq_true (fun e => hx (e ▸ c.inner y z hy hz)))
  cases m with
  | param vs => exact made _
  | node => exact made _
  | finish x i => exact stay
  | init x => exact stay
  | link p x index =>
    cases b with
    | true => exact stay
    | false =>
      have e1 : ∀ y, (P.link p x index).kids y = if y = p then
          (P.without x p).take (place (P.without x p).length index) ++
            x :: (P.without x p).drop (place (P.without x p).length index)
          else P.without x y := fun y => by
        show upd (P.without x) p _ y = _
        unfold upd; rfl
      have sub : ∀ y z, z ∈ P.without x y → z ∈ P.kids y := fun y z hz => (List.mem_filter.mp hz).1
      refine ⟨Nat.le_refl _, fun _ _ => rfl, fun y hy => ?_, fun q z hq hz hmz => ?_⟩
      · show (P.link p x index).kids y = _
        rw [e1, if_neg (fun e : y = p => hb.1 (e ▸ hy)), notin hb.2 y hy]
      · have hmz : z ∈ (P.link p x index).kids q := hmz
        rw [e1] at hmz
        split at hmz
        · rename_i e
          subst e
          rcases List.mem_append.mp hmz with h1 | h1
          · exact c.outer q z hq hz (sub _ _ (List.mem_of_mem_take h1))
          · rcases List.mem_cons.mp h1 with rfl | h1
            · exact absurd hz hb.2
            · exact c.outer q z hq hz (sub _ _ (List.mem_of_mem_drop h1))
        · exact c.outer q z hq hz (sub _ _ hmz)
  | unlink p x =>
    cases b with
    | true => exact stay
    | false =>
      have e1 : ∀ y, (P.unlink p x).kids y = if y = p then P.without x p else P.kids y := fun y => by
        show upd P.kids p _ y = _
        unfold upd; rfl
      refine ⟨Nat.le_refl _, fun _ _ => rfl, fun y hy => ?_, fun q z hq hz hmz => ?_⟩
      · show (P.unlink p x).kids y = _
        rw [e1, if_neg (fun e : y = p => hb.1 (e ▸ hy))]
      · have hmz : z ∈ (P.unlink p x).kids q := hmz
        rw [e1] at hmz
        split at hmz
        · rename_i e
          subst e
          exact c.outer q z hq hz (List.mem_filter.mp hmz).1
        · exact c.outer q z hq hz hmz
  | copy x =>
    refine ⟨Nat.le_add_right _ _, fun y hy => if_pos (c.lt y hy), fun y hy => if_pos (c.lt y hy), fun q z _ hz hmz => ?_⟩
    have hmz : z ∈ (if q < P.next then P.kids q else
      (((P.tree x)[q - P.next]?).elim [] P.kids).map (fun z => P.next + (P.tree x).idxOf z)) := hmz
    split at hmz
    · rename_i hq
      exact c.outer q z hq hz hmz
    · obtain ⟨w, -, rfl⟩ := List.mem_map.mp hmz
      exact absurd (c.lt _ hz) (Nat.not_lt.mpr (Nat.le_add_right _ _))
  | deed q d =>
    refine ⟨Nat.le_refl _, fun y hy => if_neg (fun hmz => ?_), fun _ _ => rfl, c.outer⟩
    have hq : q < P.next := by rw [← rp.next]; exact hm.1
    exact hb (c.tree_up hk _ hq (params_tree P _ hmz) hy)

/-! ### Shared calls -/

/-- What is refused of one is refused of the other. -/
theorem PMatch.refuses {s s' : State V T} {P P' : Plan V T} {D : Id → Prop} {f : Id → Id} (a : PMatch P P' D f)
    (h : Path spoil s) (h' : Path spoil' s') (rp : Represents s P) (rp' : Represents s' P') {m : Move V T W} (hm : m.Of D) :
    P'.refuses (m.across f) = P.refuses m := by
  have hk := rp.kids_lt h
  have hk' := rp'.kids_lt h'
  cases m with
  | link p x index =>
    obtain ⟨hp, hx⟩ := hm
    have e1 : P'.together (f p) (f x) = P.together p x := by
      unfold Plan.together
      refine congrArg₂ and ?_ ?_
      · rw [Bool.eq_iff_iff, List.any_eq_true, List.any_eq_true]
        constructor
        · rintro ⟨q, hq, hmm⟩
          rw [decide_eq_true_eq] at hmm
          obtain ⟨q0, h0, rfl⟩ := a.outer' q x (List.mem_range.mp hq) hx hmm
          exact ⟨q0, List.mem_range.mpr (a.lt q0 h0), decide_eq_true ((a.mem_kids h0 hx).mp hmm)⟩
        · rintro ⟨q, hq, hmm⟩
          rw [decide_eq_true_eq] at hmm
          have h0 := a.outer q x (List.mem_range.mp hq) hx hmm
          exact ⟨f q, List.mem_range.mpr (a.lt' q h0), decide_eq_true ((a.mem_kids h0 hx).mpr hmm)⟩
      · rw [Bool.eq_iff_iff, List.any_eq_true, List.any_eq_true]
        have tr : ∀ {r y : Id}, D r → D y → (f y ∈ P'.tree (f r) ↔ y ∈ P.tree r) := fun hr hy => by
          rw [a.tree h h' rp rp' hr]
          exact a.mem_map (fun z hz => a.closed.tree_down _ hz hr) hy
        constructor
        · rintro ⟨r, hr, hmm⟩
          rw [Bool.and_eq_true, decide_eq_true_eq, decide_eq_true_eq] at hmm
          obtain ⟨r0, h0, rfl⟩ := a.closed'.tree_up hk' _ (List.mem_range.mp hr) hmm.1 ⟨x, hx, rfl⟩
          refine ⟨r0, List.mem_range.mpr (a.lt r0 h0), ?_⟩
          rw [Bool.and_eq_true, decide_eq_true_eq, decide_eq_true_eq]
          exact ⟨(tr h0 hx).mp hmm.1, (tr h0 hp).mp hmm.2⟩
        · rintro ⟨r, hr, hmm⟩
          rw [Bool.and_eq_true, decide_eq_true_eq, decide_eq_true_eq] at hmm
          have h0 := a.closed.tree_up hk _ (List.mem_range.mp hr) hmm.1 hx
          refine ⟨f r, List.mem_range.mpr (a.lt' r h0), ?_⟩
          rw [Bool.and_eq_true, decide_eq_true_eq, decide_eq_true_eq]
          exact ⟨(tr h0 hx).mpr hmm.1, (tr h0 hp).mpr hmm.2⟩
    simp only [Move.across, Plan.refuses]
    rw [a.row p hp, e1]
    refine congrArg _ ?_
    have e2 := a.mem_kids hp hx
    by_cases hx2 : x ∈ P.kids p
    · rw [if_pos hx2, if_pos (e2.mpr hx2)]
    · rw [if_neg hx2, if_neg (fun hc => hx2 (e2.mp hc))]
  | unlink p x =>
    obtain ⟨hp, hx⟩ := hm
    simp only [Move.across, Plan.refuses]
    rw [a.row p hp]
    refine congrArg _ (decide_eq_decide.mpr ?_)
    rw [a.mem_kids hp hx]
    exact and_congr ⟨fun _ => a.lt p hp, fun _ => a.lt' p hp⟩ Iff.rfl
  | _ => rfl

theorem getElem?_tree {s : State V T} {P : Plan V T} (h : Path spoil s) (rp : Represents s P) {x t z : Id} (hx : x < P.next)
    (ht : t ∈ P.tree x) (hz : z ∈ P.kids t) : z ∈ P.tree x := by
  have sk := h.reach.heap.wf.skel
  rw [rp.tree sk hx, sk.mem_subtree] at ht ⊢
  have hlt : t < P.next := by rw [← rp.next]; exact lt_of_anc sk (by rw [rp.next]; exact hx) ht
  rw [← rp.kids t hlt] at hz
  exact .step ht ((sk.mem_iff _ _).mp hz)

/-- A shared call leaves corresponding objects and shows the same. -/
theorem both_step {o : Ops V T} {F : List V → W} {g : List V → List V} {s s' : State V T} {P P' : Plan V T} {D : Id → Prop}
    {f : Id → Id} (a : PMatch P P' D f) (h : Path spoil s) (h' : Path spoil' s') (rp : Represents s P) (rp' : Represents s' P')
    {N : Id → Notes} {m : Move V T W} (hm : m.Of D) (hf : m.Fits spoil s P N) (b : Bool) :
    PMatch (P.exec o F g b m).1 (P'.exec o F g b (m.across f)).1 (more D P.next (P.exec o F g b m).1.next)
      (ahead f P.next P'.next) ∧
    (P.exec o F g b m).2 = (P'.exec o F g b (m.across f)).2 := by
  have hk := rp.kids_lt h
  have hk' := rp'.kids_lt h'
  have still : ∀ {Q Q' : Plan V T}, PMatch Q Q' D f → Q.next = P.next → Q'.next = P'.next →
      (∀ q, q < P.next → ∀ z ∈ Q.kids q, z < P.next) → (∀ q, q < P'.next → ∀ z ∈ Q'.kids q, z < P'.next) →
      PMatch Q Q' (more D P.next Q.next) (ahead f P.next P'.next) := by
    intro Q Q' aq e1 e2 k1 k2
    have := aq.grow (by rw [e1]; exact k1) (by rw [e2]; exact k2) (P1 := Q) (P1' := Q') 0 rfl rfl (fun _ _ => ⟨rfl, rfl⟩)
      (fun _ _ => ⟨rfl, rfl⟩) (fun j hj => absurd hj (Nat.not_lt_zero _)) (fun j hj => absurd hj (Nat.not_lt_zero _))
    rw [e1, e2] at this
    rw [e1]
    exact this
  have stay : PMatch P P' (more D P.next P.next) (ahead f P.next P'.next) := still a rfl rfl hk hk'
  have one : ∀ j, j < 1 → j = 0 := fun j hj => Nat.lt_one_iff.mp hj
  have made : ∀ R, PMatch { next := P.next + 1, row := upd P.row P.next R, kids := upd P.kids P.next [] }
      { next := P'.next + 1, row := upd P'.row P'.next R, kids := upd P'.kids P'.next [] }
      (more D P.next (P.next + 1)) (ahead f P.next P'.next) := by
    intro R
    refine a.grow hk hk' 1 rfl rfl (fun y hy => ⟨upd_ne _ _ (Nat.ne_of_lt hy), upd_ne _ _ (Nat.ne_of_lt hy)⟩)
      (fun y hy => ⟨upd_ne _ _ (Nat.ne_of_lt hy), upd_ne _ _ (Nat.ne_of_lt hy)⟩) (fun j hj => ?_) (fun j hj => ⟨[], ?_, ?_, ?_⟩)
    · rw [one j hj]
      show upd P'.row P'.next R P'.next = upd P.row P.next R P.next
      rw [upd_same, upd_same]
    · intro i hi; cases hi
    · rw [one j hj]; exact upd_same _ _ _
    · rw [one j hj]; exact upd_same _ _ _
  have link_lt : ∀ {Q : Plan V T} {p x : Id} (i : Option Int), (∀ q, q < Q.next → ∀ z ∈ Q.kids q, z < Q.next) → x < Q.next →
      p < Q.next → ∀ q, q < Q.next → ∀ z ∈ (Q.link p x i).kids q, z < Q.next := by
    intro Q p x i kq hx hp q hq z hz
    have e1 : (Q.link p x i).kids q = if q = p then
        (Q.without x p).take (place (Q.without x p).length i) ++ x :: (Q.without x p).drop (place (Q.without x p).length i)
        else Q.without x q := by
      show upd (Q.without x) p _ q = _
      unfold upd; rfl
    have sub : ∀ y z, z ∈ Q.without x y → z ∈ Q.kids y := fun y z hz => (List.mem_filter.mp hz).1
    rw [e1] at hz
    split at hz
    · rcases List.mem_append.mp hz with h1 | h1
      · exact kq p hp z (sub _ _ (List.mem_of_mem_take h1))
      · rcases List.mem_cons.mp h1 with rfl | h1
        · exact hx
        · exact kq p hp z (sub _ _ (List.mem_of_mem_drop h1))
    · exact kq q hq z (sub _ _ hz)
  have unlink_lt : ∀ {Q : Plan V T} {p x : Id}, (∀ q, q < Q.next → ∀ z ∈ Q.kids q, z < Q.next) →
      p < Q.next → ∀ q, q < Q.next → ∀ z ∈ (Q.unlink p x).kids q, z < Q.next := by
    intro Q p x kq hp q hq z hz
    have e1 : (Q.unlink p x).kids q = if q = p then Q.without x p else Q.kids q := by
      show upd Q.kids p _ q = _
      unfold upd; rfl
    rw [e1] at hz
    split at hz
    · exact kq p hp z (List.mem_filter.mp hz).1
    · exact kq q hq z hz
  cases m with
  | param vs => exact ⟨made _, rfl⟩
  | node => exact ⟨made _, rfl⟩
  | finish x i => exact ⟨stay, rfl⟩
  | init x => exact ⟨stay, rfl⟩
  | link p x index =>
    cases b with
    | true => exact ⟨stay, rfl⟩
    | false =>
      exact ⟨still (a.linked hm.1 hm.2 index) rfl rfl (link_lt index hk (a.lt _ hm.2) (a.lt _ hm.1))
        (link_lt index hk' (a.lt' _ hm.2) (a.lt' _ hm.1)), rfl⟩
  | unlink p x =>
    cases b with
    | true => exact ⟨stay, rfl⟩
    | false =>
      exact ⟨still (a.unlinked hm.1 hm.2) rfl rfl (unlink_lt hk (a.lt _ hm.1)) (unlink_lt hk' (a.lt' _ hm.1)), rfl⟩
  | copy x =>
    have hx : D x := hm
    have ht := a.tree h h' rp rp' hx
    have hin : ∀ z ∈ P.tree x, D z := fun z hz => a.closed.tree_down _ hz hx
    refine ⟨a.grow hk hk' (P.tree x).length rfl (by show _ + (P'.tree (f x)).length = _; rw [ht, List.length_map])
      (fun y hy => ⟨if_pos hy, if_pos hy⟩) (fun y hy => ⟨if_pos hy, if_pos hy⟩) (fun j hj => ?_) (fun j hj => ?_), rfl⟩
    · show (if P'.next + j < P'.next then _ else ((P'.tree (f x))[P'.next + j - P'.next]?).bind P'.row) =
        if P.next + j < P.next then _ else ((P.tree x)[P.next + j - P.next]?).bind P.row
      rw [if_neg (Nat.not_lt.mpr (Nat.le_add_right _ _)), if_neg (Nat.not_lt.mpr (Nat.le_add_right _ _)),
        Nat.add_sub_cancel_left, Nat.add_sub_cancel_left, ht, List.getElem?_map, List.getElem?_eq_getElem hj]
      exact a.row _ (hin _ (List.getElem_mem hj))
    · have hD := hin _ (List.getElem_mem hj)
      refine ⟨(P.kids (P.tree x)[j]).map (fun z => (P.tree x).idxOf z), fun i hi => ?_, ?_, ?_⟩
      · obtain ⟨z, hz, rfl⟩ := List.mem_map.mp hi
        exact List.idxOf_lt_length_of_mem (getElem?_tree h rp (a.lt x hx) (List.getElem_mem hj) hz)
      · show (if P.next + j < P.next then _ else
          (((P.tree x)[P.next + j - P.next]?).elim [] P.kids).map (fun z => P.next + (P.tree x).idxOf z)) = _
        rw [if_neg (Nat.not_lt.mpr (Nat.le_add_right _ _)), Nat.add_sub_cancel_left, List.getElem?_eq_getElem hj, List.map_map]
        rfl
      · show (if P'.next + j < P'.next then _ else
          (((P'.tree (f x))[P'.next + j - P'.next]?).elim [] P'.kids).map (fun z => P'.next + (P'.tree (f x)).idxOf z)) = _
        rw [if_neg (Nat.not_lt.mpr (Nat.le_add_right _ _)), Nat.add_sub_cancel_left, ht, List.getElem?_map,
          List.getElem?_eq_getElem hj, List.map_map]
        show (P'.kids (f (P.tree x)[j])).map _ = _
        rw [a.kids _ hD, List.map_map]
        refine List.map_congr_left (fun z hz => ?_)
        show P'.next + ((P.tree x).map f).idxOf (f z) = P'.next + (P.tree x).idxOf z
        rw [idxOf_across (fun y hy e => a.apart y z (hin y hy) (a.inner _ z hD hz) e)]
  | deed r d =>
    have hr : D r := hm
    have hsheet := a.sheet h h' rp rp' hr
    have anc : ∀ y, Anc s.heap.toGraph r y → D y := fun y hy => by
      have sk := h.reach.heap.wf.skel
      refine a.closed.tree_down (P.next + 1) (?_ : y ∈ P.tree r) hr
      rw [rp.tree sk (a.lt r hr), sk.mem_subtree]
      exact hy
    have hmap : (d.map (across f)).map (P'.spots (f r)) = d.map (P.spots r) :=
      d.map_place (fun x hx => a.spots h h' rp rp' hr (anc _ (Deed.inside hf.2.2.1 hx)))
    simp only [Move.across, Plan.exec]
    rw [hsheet, hmap]
    exact ⟨still (a.store h h' rp rp' hr _) rfl rfl hk hk', rfl⟩

/-! ### Whole programs -/

/-- Corresponding objects stay corresponding, and shared calls raise and show the same. -/
theorem share_same {o : Ops V T} {F : List V → W} {g : List V → List V} (hg : ∀ v, (g v).length = v.length)
    {junk junk' : List V} {D : Id → Prop} {f : Id → Id} {w w' : World V T} {ks ks' : List (Bool × Move V T W)}
    (hs : Share spoil spoil' o F g junk junk' D f w w' ks ks') :
    ∀ {P P' : Plan V T} {N N' : Id → Notes}, Rep spoil o w P N → Rep spoil' o w' P' N' → PMatch P P' D f →
    (ks = [] ∨ w.st.heap.visited = fun _ => false) → (ks' = [] ∨ w'.st.heap.visited = fun _ => false) →
    AllMovesFit spoil o F g junk (ks.map (·.2)) w P N → AllMovesFit spoil' o F g junk' (ks'.map (·.2)) w' P' N' →
    P.Stops o F g (ks.map (·.2)) → P'.Stops o F g (ks'.map (·.2)) →
    sharedAnswers ks (w.execs spoil o F g junk (ks.map (·.2))).2 =
      sharedAnswers ks' (w'.execs spoil' o F g junk' (ks'.map (·.2))).2 ∧
    ∃ D1 f1, (∀ y, D y → D1 y ∧ f1 y = f y) ∧
      Match (w.execs spoil o F g junk (ks.map (·.2))).1.st (w'.execs spoil' o F g junk' (ks'.map (·.2))).1.st D1 f1 ∧
      ((∀ k ∈ ks, k.1 = true) → (∀ y, y < w.st.heap.next → D y) →
        ∀ y, y < (w.execs spoil o F g junk (ks.map (·.2))).1.st.heap.next → D1 y) := by
  have tail : ∀ {ks : List (Bool × Move V T W)} {P : Plan V T} {m : Move V T W} {v : Id → Bool},
      (P.inside m = true → ks.map (·.2) = []) → (P.inside m = false → v = fun _ => false) →
      ks = [] ∨ v = fun _ => false := by
    intro ks P m v h1 h2
    cases hi : P.inside m with
    | true => exact .inl (List.map_eq_nil_iff.mp (h1 hi))
    | false => exact .inr (h2 hi)
  induction hs with
  | @nil D f w w' =>
    intro P P' N N' i i' a _ _ _ _ _ _
    exact ⟨rfl, D, f, fun _ hy => ⟨hy, rfl⟩, a.match i.path i'.path i.plan i'.plan, fun _ h => h⟩
  | @both D f w w' ks ks' m hof _ ih =>
    intro P P' N N' i i' a hv hv' hm hm' st st'
    have hv := hv.resolve_left (List.cons_ne_nil _ _)
    have hv' := hv'.resolve_left (List.cons_ne_nil _ _)
    obtain ⟨e1, i1⟩ := rep_step (F := F) hg i junk hm.1
    obtain ⟨e1', i1'⟩ := rep_step (F := F) hg i' junk' hm'.1
    obtain ⟨f1, v1⟩ := refuses_step (F := F) (g := g) i hv junk hm.1
    obtain ⟨f1', v1'⟩ := refuses_step (F := F) (g := g) i' hv' junk' hm'.1
    have hm2 := hm.2
    have hm2' := hm'.2
    dsimp only at hm2 hm2' f1 f1' e1 e1' i1 i1' v1 v1'
    have hre := a.refuses i.path i'.path i.plan i'.plan hof
    rw [hre] at f1'
    rw [f1] at e1 i1 hm2
    rw [f1'] at e1' i1' hm2'
    have st2 := st.2
    have st2' := st'.2
    dsimp only at st2 st2'
    rw [hre] at st2'
    obtain ⟨a1, e3⟩ := both_step (o := o) (F := F) (g := g) a i.path i'.path i.plan i'.plan hof hm.1 (P.refuses m)
    rw [← i1.plan.next, ← i.plan.next, ← i'.plan.next] at a1
    obtain ⟨e2, D1, f2, ext, r2, all⟩ := ih i1 i1' a1 (tail st.1 v1) (tail st'.1 v1') hm2 hm2' st2 st2'
    simp only [World.execs, List.map_cons, sharedAnswers]
    refine ⟨?_, D1, f2, fun y hy => ?_, r2, fun ha hD => all (fun k hk => ha k (List.mem_cons_of_mem _ hk)) (fun y hy => ?_)⟩
    · rw [e2, f1, f1', e1, e1', e3]
    · obtain ⟨x1, x2⟩ := ext y (.inl hy)
      refine ⟨x1, x2.trans (if_neg (Nat.not_le.mpr ?_))⟩
      rw [i.plan.next]
      exact a.lt y hy
    · by_cases h : y < w.st.heap.next
      · exact .inl (hD y h)
      · exact .inr ⟨Nat.le_of_not_lt h, hy⟩
  | @left D f w w' ks ks' m hb _ ih =>
    intro P P' N N' i i' a hv hv' hm hm' st st'
    have hv := hv.resolve_left (List.cons_ne_nil _ _)
    obtain ⟨-, i1⟩ := rep_step (F := F) hg i junk hm.1
    obtain ⟨f1, v1⟩ := refuses_step (F := F) (g := g) i hv junk hm.1
    have hm2 := hm.2
    dsimp only at hm2 f1 i1 v1
    rw [f1] at i1 hm2
    have l := beside_leaves (o := o) (F := F) (g := g) i.path i.plan a.closed hm.1 hb (P.refuses m)
    have a1 := (l.back a.closed).trans a (fun _ hy => hy)
    obtain ⟨e2, D1, f2, ext, r2, all⟩ := ih i1 i' a1 (tail st.1 v1) hv' hm2 hm' st.2 st'
    simp only [World.execs, List.map_cons, sharedAnswers]
    exact ⟨e2, D1, f2, ext, r2, fun ha _ => by cases ha (false, m) List.mem_cons_self⟩
  | @right D f w w' ks ks' m hb _ ih =>
    intro P P' N N' i i' a hv hv' hm hm' st st'
    have hv' := hv'.resolve_left (List.cons_ne_nil _ _)
    obtain ⟨-, i1⟩ := rep_step (F := F) hg i' junk' hm'.1
    obtain ⟨f1, v1⟩ := refuses_step (F := F) (g := g) i' hv' junk' hm'.1
    have hm2 := hm'.2
    dsimp only at hm2 f1 i1 v1
    rw [f1] at i1 hm2
    have l := beside_leaves (o := o) (F := F) (g := g) i'.path i'.plan a.closed' hm'.1 hb (P'.refuses m)
    have a1 := a.trans (l.forth a.closed') (fun y hy => ⟨y, hy, rfl⟩)
    obtain ⟨e2, D1, f2, ext, r2, all⟩ := ih i i1 a1 hv (tail st'.1 v1) hm hm2 st st'.2
    simp only [World.execs, List.map_cons, sharedAnswers]
    exact ⟨e2, D1, f2, ext, r2, all⟩

/-- What earlier calls leave: a plan and no marks. -/
theorem rep_before_clean {o : Ops V T} {F : List V → W} {g : List V → List V} (hg : ∀ v, (g v).length = v.length)
    (junk : List V) (ks : List (Move V T W)) : ∀ (ms : List (Move V T W)) {w : World V T} {P : Plan V T} {N : Id → Notes},
    Rep spoil o w P N → w.st.heap.visited = (fun _ => false) → AllMovesFit spoil o F g junk (ms ++ ks) w P N →
    P.Stops o F g (ms ++ ks) →
    ∃ P' N', Rep spoil o (w.execs spoil o F g junk ms).1 P' N' ∧
      AllMovesFit spoil o F g junk ks (w.execs spoil o F g junk ms).1 P' N' ∧ P'.Stops o F g ks ∧
      (ks = [] ∨ (w.execs spoil o F g junk ms).1.st.heap.visited = fun _ => false)
  | [], _, P, N, i, hv, hm, st => ⟨P, N, i, hm, st, .inr hv⟩
  | m :: ms, w, P, N, i, hv, hm, st => by
    obtain ⟨-, i1⟩ := rep_step (F := F) hg i junk hm.1
    obtain ⟨f1, v1⟩ := refuses_step (F := F) (g := g) i hv junk hm.1
    have hm2 := hm.2
    dsimp only [List.append_eq] at hm2
    rw [f1] at i1 hm2
    cases hi : P.inside m with
    | false => exact rep_before_clean hg junk ks ms i1 (v1 hi) hm2 st.2
    | true =>
      have hnil : ms ++ ks = [] := st.1 hi
      obtain ⟨rfl, rfl⟩ := List.append_eq_nil_iff.mp hnil
      exact ⟨_, _, i1, trivial, trivial, .inl rfl⟩

/-- Models that are alike correspond, with everything inside them. -/
theorem Alike.match {s s' : State V T} {f : Id → Id} {r r' : Id} (a : Alike s s' f r r') (h : Path spoil s)
    (h' : Path spoil' s') (hr : r < s.heap.next ∧ s.heap.parent r = none) (hr' : r' < s'.heap.next ∧ s'.heap.parent r' = none) :
    Match s s' (Anc s.heap.toGraph r) f := by
  have sk := h.reach.heap.wf.skel
  have sk' := h'.reach.heap.wf.skel
  refine ⟨fun y hy => lt_of_anc sk hr.1 hy, fun y hy => lt_of_anc sk' hr'.1 (a.anc sk sk' hy), a.apart, a.kind, a.kids, a.elements,
    fun y z hy hz => .step hy ((sk.mem_iff _ _).mp hz), fun q z hz hm => ?_, fun q z hz hm => ?_⟩
  · have hp := (sk.mem_iff _ _).mp hm
    cases hz with
    | refl => exact absurd (hp.symm.trans hr.2) (Option.some_ne_none _)
    | @step p _ hp' hc =>
      have := hp.symm.trans hc
      cases this
      exact hp'
  · have hp := (sk'.mem_iff _ _).mp hm
    cases hz with
    | refl =>
      rw [a.top] at hp
      exact absurd (hp.symm.trans hr'.2) (Option.some_ne_none _)
    | @step p _ hp' hc =>
      refine ⟨p, hp', ?_⟩
      have h1 : f z ∈ s'.heap.kids (f p) := by
        rw [a.kids p hp']
        exact List.mem_map.mpr ⟨z, (sk.mem_iff _ _).mpr hc, rfl⟩
      have := ((sk'.mem_iff _ _).mp h1).symm.trans hp
      cases this
      rfl

/-! ### C98, C102 -/

/-- **C98, with links.** Two programs have made corresponding objects, in whatever ways. From then on they make the
same calls on these, on objects they make together from then on, and on copies of all these: link, move, unlink,
constrain, assign, look, optimise, with anything else beside. The same of these calls are refused, they show the same, and in
the end the objects correspond. Missing for the full claim: as for C96 and C99. -/
theorem matching_behave_alike_partial {o : Ops V T} {F : List V → W} {g : List V → List V}
    (hg : ∀ v, (g v).length = v.length) {cell cell' : Nat → Nat → V} {junk junk' : List V} {ms ms' : List (Move V T W)}
    {ks ks' : List (Bool × Move V T W)} {D : Id → Prop} {f : Id → Id}
    (hm : AllMovesFit spoil o F g junk (ms ++ ks.map (·.2)) (.empty cell) .empty (fun _ => ⟨false, false⟩))
    (hm' : AllMovesFit spoil' o F g junk' (ms' ++ ks'.map (·.2)) (.empty cell') .empty (fun _ => ⟨false, false⟩))
    (hs : Plan.empty.Stops o F g (ms ++ ks.map (·.2))) (hs' : Plan.empty.Stops o F g (ms' ++ ks'.map (·.2))) :
    let w := ((World.empty cell).execs spoil o F g junk ms).1
    let w' := ((World.empty cell').execs spoil' o F g junk' ms').1
    Match w.st w'.st D f → Share spoil spoil' o F g junk junk' D f w w' ks ks' →
    sharedAnswers ks (w.execs spoil o F g junk (ks.map (·.2))).2 =
      sharedAnswers ks' (w'.execs spoil' o F g junk' (ks'.map (·.2))).2 ∧
    ∃ D1 f1, (∀ y, D y → D1 y ∧ f1 y = f y) ∧
      Match (w.execs spoil o F g junk (ks.map (·.2))).1.st (w'.execs spoil' o F g junk' (ks'.map (·.2))).1.st D1 f1 := by
  intro w w' a sh
  obtain ⟨P, N, i, hk, st, hv⟩ := rep_before_clean (F := F) hg junk (ks.map (·.2)) ms (rep_empty (spoil := spoil) o cell) rfl hm hs
  obtain ⟨P', N', i', hk', st', hv'⟩ :=
    rep_before_clean (F := F) hg junk' (ks'.map (·.2)) ms' (rep_empty (spoil := spoil') o cell') rfl hm' hs'
  obtain ⟨e, D1, f1, h1, h2, -⟩ := share_same hg sh i i' (a.plan i.plan i'.plan) (hv.imp List.map_eq_nil_iff.mp id)
    (hv'.imp List.map_eq_nil_iff.mp id) hk hk' st st'
  exact ⟨e, D1, f1, h1, h2⟩

theorem sharedAnswers_all : ∀ {ks : List (Bool × Move V T W)} (es : List (Option Hier.Err × Shown V W)),
    (∀ k ∈ ks, k.1 = true) → ks.length = es.length → sharedAnswers ks es = es.map (fun e => (e.1.isSome, e.2))
  | [], [], _, _ => rfl
  | (true, _) :: ks, e :: es, h, hl => by
    rw [sharedAnswers, List.map_cons, sharedAnswers_all es (fun k hk => h k (List.mem_cons_of_mem _ hk)) (Nat.succ.inj hl)]
  | (false, m) :: ks, e :: es, h, _ => by cases h (false, m) List.mem_cons_self

theorem execs_length (o : Ops V T) (F : List V → W) (g : List V → List V) (junk : List V) : ∀ (ms : List (Move V T W))
    (w : World V T), (w.execs spoil o F g junk ms).2.length = ms.length
  | [], _ => rfl
  | m :: ms, w => by
    simp only [World.execs, List.length_cons]
    rw [execs_length o F g junk ms]

/-- **C102.** A program sees the same, is refused the same and leaves the same objects whether it runs alone (`ks`) or other
programs run in between (`ks'`, whose calls marked `true` are those of `ks`, on its objects under their numbers there).
Missing for the full claim: as for C96 and C99. -/
theorem alone_or_among_others_partial {o : Ops V T} {F : List V → W} {g : List V → List V}
    (hg : ∀ v, (g v).length = v.length) {cell cell' : Nat → Nat → V} {junk junk' : List V}
    {ks ks' : List (Bool × Move V T W)} (hall : ∀ k ∈ ks, k.1 = true)
    (hm : AllMovesFit spoil o F g junk (ks.map (·.2)) (.empty cell) .empty (fun _ => ⟨false, false⟩))
    (hm' : AllMovesFit spoil' o F g junk' (ks'.map (·.2)) (.empty cell') .empty (fun _ => ⟨false, false⟩))
    (hs : Plan.empty.Stops o F g (ks.map (·.2))) (hs' : Plan.empty.Stops o F g (ks'.map (·.2)))
    (sh : Share spoil spoil' o F g junk junk' (fun _ => False) id (.empty cell) (.empty cell') ks ks') :
    let e := (World.empty cell).execs spoil o F g junk (ks.map (·.2))
    let e' := (World.empty cell').execs spoil' o F g junk' (ks'.map (·.2))
    e.2.map (fun e => (e.1.isSome, e.2)) = sharedAnswers ks' e'.2 ∧
    ∃ f, Match e.1.st e'.1.st (· < e.1.st.heap.next) f := by
  intro e e'
  have a : PMatch (Plan.empty : Plan V T) .empty (fun _ => False) id :=
    ⟨fun _ h => h.elim, fun _ h => h.elim, fun _ _ h => h.elim, fun _ h => h.elim, fun _ h => h.elim, fun _ _ h => h.elim,
      fun _ _ _ h => h.elim, fun _ _ _ h => h.elim⟩
  obtain ⟨h1, D1, f1, -, h2, h3⟩ := share_same hg sh (rep_empty o cell) (rep_empty o cell') a (.inr rfl) (.inr rfl) hm hm' hs hs'
  have hD : D1 = (· < e.1.st.heap.next) := funext (fun y => propext ⟨fun hy => h2.lt y hy,
    h3 hall (fun y hy => absurd hy (Nat.not_lt_zero _)) y⟩)
  rw [sharedAnswers_all _ hall (by rw [execs_length, List.length_map])] at h1
  exact ⟨h1, f1, hD ▸ h2⟩

/-! ### Examples -/

/-- A call of both programs, of the first only, or of the second only. -/
inductive Turn (V T W : Type)
  | both (m : Move V T W)
  | mine (m : Move V T W)
  | other (m : Move V T W)

/-- The second program, from the first program and what is beside. -/
def woven (spoil spoil' : Nat → Nat → V) (o : Ops V T) (F : List V → W) (g : List V → List V) (junk junk' : List V) :
    (Id → Id) → World V T → World V T → List (Turn V T W) → List (Bool × Move V T W)
  | _, _, _, [] => []
  | f, w, w', .both m :: ts => (true, m.across f) :: woven spoil spoil' o F g junk junk'
      (ahead f w.st.heap.next w'.st.heap.next) (w.exec spoil o F g junk m).1 (w'.exec spoil' o F g junk' (m.across f)).1 ts
  | f, w, w', .mine m :: ts => woven spoil spoil' o F g junk junk' f (w.exec spoil o F g junk m).1 w' ts
  | f, w, w', .other m :: ts => (false, m) :: woven spoil spoil' o F g junk junk' f w (w'.exec spoil' o F g junk' m).1 ts

/-- The first program. -/
def plain : List (Turn V T W) → List (Bool × Move V T W)
  | [] => []
  | .both m :: ts => (true, m) :: plain ts
  | .mine m :: ts => (false, m) :: plain ts
  | .other _ :: ts => plain ts

/-- A checker for `Move.Of`. -/
def Move.ofB (d : Id → Bool) : Move V T W → Bool
  | .param _ => true
  | .node => true
  | .finish x _ => d x
  | .init x => d x
  | .link p x _ => d p && d x
  | .unlink p x => d p && d x
  | .copy x => d x
  | .deed r _ => d r

/-- A checker for `Move.Beside`, of the objects `l`. -/
def Move.besideB (l : List Id) : Move V T W → Bool
  | .link p x _ => !l.contains p && !l.contains x
  | .unlink p x => !l.contains p && !l.contains x
  | .deed r _ => !l.contains r
  | _ => true

/-- A checker for `Share`, with the objects below the number of objects that have `d`. -/
def wovenB (spoil spoil' : Nat → Nat → V) (o : Ops V T) (F : List V → W) (g : List V → List V) (junk junk' : List V) :
    (Id → Bool) → (Id → Id) → World V T → World V T → List (Turn V T W) → Bool
  | _, _, _, _, [] => true
  | d, f, w, w', .both m :: ts => m.ofB (fun y => decide (y < w.st.heap.next) && d y) &&
      decide (w.st.heap.next ≤ (w.exec spoil o F g junk m).1.st.heap.next) && wovenB spoil spoil' o F g junk junk'
      (fun y => d y || decide (w.st.heap.next ≤ y))
      (ahead f w.st.heap.next w'.st.heap.next) (w.exec spoil o F g junk m).1 (w'.exec spoil' o F g junk' (m.across f)).1 ts
  | d, f, w, w', .mine m :: ts => m.besideB ((List.range w.st.heap.next).filter d) &&
      decide (w.st.heap.next ≤ (w.exec spoil o F g junk m).1.st.heap.next) &&
      wovenB spoil spoil' o F g junk junk' (fun y => d y && decide (y < w.st.heap.next)) f (w.exec spoil o F g junk m).1 w' ts
  | d, f, w, w', .other m :: ts => m.besideB (((List.range w.st.heap.next).filter d).map f) &&
      wovenB spoil spoil' o F g junk junk' d f w (w'.exec spoil' o F g junk' m).1 ts

theorem Move.ofB_sound {d : Id → Bool} {D : Id → Prop} (hD : ∀ y, d y = true → D y) {m : Move V T W} (hb : m.ofB d = true) :
    m.Of D := by
  cases m <;> simp only [Move.ofB, Bool.and_eq_true] at hb <;>
    first | trivial | exact hD _ hb | exact ⟨hD _ hb.1, hD _ hb.2⟩

theorem Move.besideB_sound {l : List Id} {D : Id → Prop} (hD : ∀ y, D y → y ∈ l) {m : Move V T W}
    (hb : m.besideB l = true) : m.Beside D := by
  have key : ∀ {y : Id}, l.contains y = false → ¬ D y := fun h hy => by
    have := hD _ hy
    rw [← List.contains_iff_mem] at this
    rw [h] at this
    cases this
  cases m with
  | link p x i =>
    simp only [Move.besideB, Bool.and_eq_true, Bool.not_eq_true'] at hb
    exact ⟨key hb.1, key hb.2⟩
  | unlink p x =>
    simp only [Move.besideB, Bool.and_eq_true, Bool.not_eq_true'] at hb
    exact ⟨key hb.1, key hb.2⟩
  | deed r d =>
    simp only [Move.besideB, Bool.not_eq_true'] at hb
    exact key hb
  | _ => trivial

theorem woven_share {o : Ops V T} {F : List V → W} {g : List V → List V} {junk junk' : List V} : ∀ (ts : List (Turn V T W))
    {d : Id → Bool} {f : Id → Id} {w w' : World V T} {D : Id → Prop}, (∀ y, D y ↔ y < w.st.heap.next ∧ d y = true) →
    wovenB spoil spoil' o F g junk junk' d f w w' ts = true →
    Share spoil spoil' o F g junk junk' D f w w' (plain ts) (woven spoil spoil' o F g junk junk' f w w' ts)
  | [], _, _, _, _, _, _, _ => .nil
  | .both m :: ts, d, f, w, w', D, hD, hb => by
    simp only [wovenB, Bool.and_eq_true, decide_eq_true_eq] at hb
    refine .both m (Move.ofB_sound (fun y hy => ?_) hb.1.1) (woven_share ts (fun y => ?_) hb.2)
    · rw [Bool.and_eq_true, decide_eq_true_eq] at hy
      exact (hD y).mpr hy
    · rw [Bool.or_eq_true, decide_eq_true_eq]
      constructor
      · rintro (hy | hy)
        · exact ⟨Nat.lt_of_lt_of_le ((hD y).mp hy).1 hb.1.2, .inl ((hD y).mp hy).2⟩
        · exact ⟨hy.2, .inr hy.1⟩
      · rintro ⟨hy, h⟩
        by_cases hn : y < w.st.heap.next
        · exact .inl ((hD y).mpr ⟨hn, h.resolve_right (Nat.not_le.mpr hn)⟩)
        · exact .inr ⟨Nat.le_of_not_lt hn, hy⟩
  | .mine m :: ts, d, f, w, w', D, hD, hb => by
    simp only [wovenB, Bool.and_eq_true, decide_eq_true_eq] at hb
    refine .left m (Move.besideB_sound (fun y hy => ?_) hb.1.1) (woven_share ts (fun y => ?_) hb.2)
    · exact List.mem_filter.mpr ⟨List.mem_range.mpr ((hD y).mp hy).1, ((hD y).mp hy).2⟩
    · rw [Bool.and_eq_true, decide_eq_true_eq, hD y]
      exact ⟨fun h => ⟨Nat.lt_of_lt_of_le h.1 hb.1.2, h.2, h.1⟩, fun h => ⟨h.2.2, h.2.1⟩⟩
  | .other m :: ts, d, f, w, w', D, hD, hb => by
    simp only [wovenB, Bool.and_eq_true] at hb
    refine .right m (Move.besideB_sound ?_ hb.1) (woven_share ts hD hb.2)
    rintro _ ⟨y, hy, rfl⟩
    exact List.mem_map.mpr ⟨y, List.mem_filter.mpr ⟨List.mem_range.mpr ((hD y).mp hy).1, ((hD y).mp hy).2⟩, rfl⟩

/-- The call itself. -/
def Turn.move : Turn V T W → Move V T W
  | .both m => m
  | .mine m => m
  | .other m => m

theorem Move.tame_across {f : Id → Id} {m : Move V T W} (h : m.Tame) : (m.across f).Tame := by
  cases m with
  | deed r d => cases d <;> exact h
  | _ => trivial

theorem plain_tame : ∀ {ts : List (Turn V T W)}, (∀ t ∈ ts, t.move.Tame) → ∀ m ∈ (plain ts).map (·.2), m.Tame
  | [], _, _, h => by cases h
  | .both m :: ts, ht, k, h => by
    rcases List.mem_cons.mp h with rfl | h
    · exact ht _ List.mem_cons_self
    · exact plain_tame (fun t h' => ht t (List.mem_cons_of_mem _ h')) k h
  | .mine m :: ts, ht, k, h => by
    rcases List.mem_cons.mp h with rfl | h
    · exact ht _ List.mem_cons_self
    · exact plain_tame (fun t h' => ht t (List.mem_cons_of_mem _ h')) k h
  | .other m :: ts, ht, k, h => plain_tame (fun t h' => ht t (List.mem_cons_of_mem _ h')) k h

theorem woven_tame {o : Ops V T} {F : List V → W} {g : List V → List V} {junk junk' : List V} : ∀ {ts : List (Turn V T W)}
    {f : Id → Id} {w w' : World V T}, (∀ t ∈ ts, t.move.Tame) →
    ∀ m ∈ (woven spoil spoil' o F g junk junk' f w w' ts).map (·.2), m.Tame
  | [], _, _, _, _, _, h => by cases h
  | .both m :: ts, f, w, w', ht, k, h => by
    rcases List.mem_cons.mp h with rfl | h
    · exact Move.tame_across (ht _ List.mem_cons_self)
    · exact woven_tame (fun t h' => ht t (List.mem_cons_of_mem _ h')) k h
  | .mine m :: ts, f, w, w', ht, k, h => woven_tame (fun t h' => ht t (List.mem_cons_of_mem _ h')) k h
  | .other m :: ts, f, w, w', ht, k, h => by
    rcases List.mem_cons.mp h with rfl | h
    · exact ht _ List.mem_cons_self
    · exact woven_tame (fun t h' => ht t (List.mem_cons_of_mem _ h')) k h

/-- A program that makes a model `2` with `Param`s `0` and `1`, looks at it, takes `1` out, links a new `Param` `3` twice (the
second time is refused), copies the model, and optimises it. In between another program makes a model of its own, fixes,
links and unlinks in it, and copies the first one's model and changes the copy. -/
def inTurn : List (Turn Nat Nat Nat) :=
  [.other (.param [7, 8]), .both (.param [10, 11]), .other .node, .both (.param [20]), .other (.link 2 0 none),
    .both .node, .both (.link 2 0 none), .both (.link 2 1 none), .other (.finish 2 true), .both (.finish 2 true),
    .other (.deed 2 (.fix ⟨0, some [1]⟩)), .both (.deed 2 (.constrain ⟨0, some [1]⟩ 7)), .other (.deed 2 .read),
    .both (.deed 2 .read), .both (.unlink 2 1), .other (.unlink 2 0), .both (.param [30]), .both (.link 2 3 none),
    .both (.link 2 3 none), .other (.copy 4), .other (.deed 6 (.assign ⟨6, none⟩ 99)), .both (.deed 2 (.fix ⟨3, none⟩)),
    .both (.deed 2 .values), .both (.copy 2), .both (.deed 4 (.put ⟨6, none⟩ [31])), .both (.deed 4 .values),
    .both (.deed 2 (.optimize twoSteps)), .both (.deed 2 .values), .other (.deed 6 .values)]

theorem inTurn_tame : ∀ t ∈ inTurn, t.move.Tame := by
  intro t ht
  simp only [inTurn, List.mem_cons, List.not_mem_nil, or_false] at ht
  rcases ht with rfl | rfl | rfl | rfl | rfl | rfl | rfl | rfl | rfl | rfl | rfl | rfl | rfl | rfl | rfl | rfl | rfl | rfl |
    rfl | rfl | rfl | rfl | rfl | rfl | rfl | rfl | rfl | rfl | rfl <;> first | exact trivial | exact twoSteps_fits

/-- The same program among others. -/
def amongOthers : List (Bool × Move Nat Nat Nat) :=
  woven demoSpoil demoSpoil plusOps List.sum (List.map (fun _ => 3)) [] [] id (.empty fun _ _ => 77) (.empty fun _ _ => 88)
    inTurn

/-- Among the others it sees what it sees alone. -/
example :
    let e := (World.empty fun _ _ => 77).execs demoSpoil plusOps List.sum (List.map (fun _ => 3)) [] ((plain inTurn).map (·.2))
    let e' := (World.empty fun _ _ => 88).execs demoSpoil plusOps List.sum (List.map (fun _ => 3)) [] (amongOthers.map (·.2))
    e.2.map (fun e => (e.1.isSome, e.2)) = sharedAnswers amongOthers e'.2 ∧
      ∃ f, Match e.1.st e'.1.st (· < e.1.st.heap.next) f :=
  alone_or_among_others_partial (F := List.sum) (by simp) (by decide +kernel)
    (allMovesFitB_sound (by simp) [] _ (rep_empty _ _) (by decide +kernel) (plain_tame inTurn_tame))
    (allMovesFitB_sound (by simp) [] _ (rep_empty _ _) (by decide +kernel) (woven_tame inTurn_tame))
    (Plan.stopsB_sound _ _ (by decide +kernel)) (Plan.stopsB_sound _ _ (by decide +kernel))
    (woven_share inTurn (d := fun _ => true) (fun y => ⟨fun h => h.elim, fun h => absurd h.1 (Nat.not_lt_zero _)⟩) (by decide +kernel))

example : ((World.empty fun _ _ => 77).execs demoSpoil plusOps List.sum (List.map (fun _ => 3)) []
    ((plain inTurn).map (·.2))).2.getLast? = some (none, .array [7, 8, 30]) := by
  decide +kernel

/-- Two models made in different ways (C98), that from then on get new `Param`s, lose some, are copied and optimised, with
other things beside. -/
def onBoth : List (Turn Nat Nat Nat) :=
  [.both (.deed 2 .values), .mine (.param [1]), .both (.param [40]), .both (.link 2 4 (some 0)), .other (.copy 3),
    .both (.link 2 4 none), .both (.deed 2 (.fix ⟨4, none⟩)), .both (.unlink 2 1), .mine (.deed 3 (.assign ⟨3, none⟩ 2)),
    .both (.deed 2 .values), .other (.deed 0 (.fix ⟨0, none⟩)), .both (.copy 2), .both (.deed 5 (.put ⟨6, none⟩ [41])),
    .both (.deed 2 (.assign ⟨4, none⟩ 42)), .both (.deed 2 (.optimize twoSteps)), .both (.deed 2 .read), .both (.deed 5 .values)]

theorem onBoth_tame : ∀ t ∈ onBoth, t.move.Tame := by
  intro t ht
  simp only [onBoth, List.mem_cons, List.not_mem_nil, or_false] at ht
  rcases ht with rfl | rfl | rfl | rfl | rfl | rfl | rfl | rfl | rfl | rfl | rfl | rfl | rfl | rfl | rfl | rfl | rfl <;>
    first | exact trivial | exact twoSteps_fits

/-- What is done to the other model. -/
def onOther : List (Bool × Move Nat Nat Nat) :=
  woven demoSpoil demoSpoil plusOps List.sum (List.map (fun _ => 3)) [] [] thither
    ((World.empty fun _ _ => 77).execs demoSpoil plusOps List.sum (List.map (fun _ => 3)) [] plainWay).1
    ((World.empty fun _ _ => 88).execs demoSpoil plusOps List.sum (List.map (fun _ => 3)) [] otherWay).1 onBoth

/-- The two models of C98 have the same answers for links, unlinks, copies and new `Param`s too. -/
example :
    let w := ((World.empty fun _ _ => 77).execs demoSpoil plusOps List.sum (List.map (fun _ => 3)) [] plainWay).1
    let w' := ((World.empty fun _ _ => 88).execs demoSpoil plusOps List.sum (List.map (fun _ => 3)) [] otherWay).1
    sharedAnswers (plain onBoth) (w.execs demoSpoil plusOps List.sum (List.map (fun _ => 3)) [] ((plain onBoth).map (·.2))).2 =
      sharedAnswers onOther (w'.execs demoSpoil plusOps List.sum (List.map (fun _ => 3)) [] (onOther.map (·.2))).2 := by
  intro w w'
  have hg : ∀ v : List Nat, (v.map (fun _ => 3)).length = v.length := by simp
  have t1 : ∀ m ∈ (plainWay : List (Move Nat Nat Nat)), m.Tame := by
    intro m hm
    simp only [plainWay, List.mem_cons, List.not_mem_nil, or_false] at hm
    rcases hm with rfl | rfl | rfl | rfl | rfl | rfl | rfl <;> exact trivial
  have t2 : ∀ m ∈ (otherWay : List (Move Nat Nat Nat)), m.Tame := by
    intro m hm
    simp only [otherWay, List.mem_cons, List.not_mem_nil, or_false] at hm
    rcases hm with rfl | rfl | rfl | rfl | rfl | rfl | rfl | rfl | rfl | rfl | rfl | rfl | rfl | rfl <;> exact trivial
  have f1 : AllMovesFit demoSpoil plusOps List.sum (List.map (fun _ => 3)) [] plainWay (.empty fun _ _ => 77) .empty
      (fun _ => ⟨false, false⟩) := allMovesFitB_sound (by simp) [] _ (rep_empty _ _) (by decide +kernel) t1
  have f2 : AllMovesFit demoSpoil plusOps List.sum (List.map (fun _ => 3)) [] otherWay (.empty fun _ _ => 88) .empty
      (fun _ => ⟨false, false⟩) := allMovesFitB_sound (by simp) [] _ (rep_empty _ _) (by decide +kernel) t2
  obtain ⟨-, N, i⟩ := rep_execs (F := List.sum) hg [] plainWay (rep_empty (spoil := demoSpoil) plusOps (fun _ _ => 77)) f1
  obtain ⟨-, N', i'⟩ := rep_execs (F := List.sum) hg [] otherWay (rep_empty (spoil := demoSpoil) plusOps (fun _ _ => 88)) f2
  have a : Alike w.st w'.st thither 2 3 := by
    refine (PlanAlike.of_tree i.path i.plan (by decide +kernel) rfl (by decide +kernel) ?_).alike i.path i.plan i'.plan
      (by decide +kernel)
    decide +kernel
  have sk := i.path.reach.heap.wf.skel
  refine (matching_behave_alike_partial (F := List.sum) hg
    (allMovesFitB_sound (by simp) [] _ (rep_empty _ _) (by decide +kernel) (fun m hm => ?_))
    (allMovesFitB_sound (by simp) [] _ (rep_empty _ _) (by decide +kernel) (fun m hm => ?_))
    (Plan.stopsB_sound _ _ (by decide +kernel)) (Plan.stopsB_sound _ _ (by decide +kernel))
    (a.match i.path i'.path (by decide +kernel) (by decide +kernel))
    (woven_share onBoth (d := fun y => decide (y < 3)) (fun y => ⟨fun h => ?_, fun h => ?_⟩) (by decide +kernel))).1
  · rcases List.mem_append.mp hm with h | h
    · exact t1 m h
    · exact plain_tame onBoth_tame m h
  · rcases List.mem_append.mp hm with h | h
    · exact t2 m h
    · exact woven_tame onBoth_tame m h
  · have : w.st.heap.next = 3 := by decide +kernel
    have hy := lt_of_anc sk (by decide +kernel : (2 : Id) < w.st.heap.next) h
    exact ⟨hy, decide_eq_true (this ▸ hy)⟩
  · have hy := of_decide_eq_true h.2
    have h0 : w.st.heap.parent 0 = some 2 := by decide +kernel
    have h1 : w.st.heap.parent 1 = some 2 := by decide +kernel
    match y, hy with
    | 0, _ => exact .step .refl h0
    | 1, _ => exact .step .refl h1
    | 2, _ => exact .refl

end Paramz.Memory
