import Verif.Mem.GradCopyProps
import Verif.Mem.PickleProps

/-!
# C82: the gradients of a loaded model
-/

namespace Paramz.Memory

open Hier (Id Graph Heap upd pick pick_some pick_none)
open Hier.Graph (Skel Anc At)

namespace State

variable {V T : Type} [DecidableEq T] {spoil : Nat → Nat → V}

/-- Effect of `x.pickle(f)` and `paramz.load(f)` on the gradients, with the steps of `State.load`. Gradients are not
written (pickleable.py:104-106): every new `Param` has a new array, which it owns, when it is connected
(param.py:146-147). `junk y`: what is in the gradient of the new `Param` made for `y` afterwards (`gcopy`). -/
def gload (spoil : Nat → Nat → V) (s : State V T) (refs : Id → List Id) (x : Id) (junk : Id → Nat → V) :
    Option (State V T × Id) :=
  let r := s.heap.toGraph.highest x
  (s.load spoil (fun _ => true) refs x).map fun a =>
    (((s.heap.toGraph.subtree r).filter (fun y => s.heap.leaf y && decide (0 < s.heap.size y))).foldl
      (fun q y => (q.setGradient (s.heap.copyOf r y) (.array ((List.range (s.heap.size y)).map (junk y)))).1) a.1, a.2)

theorem Twin.buildOne {h : Heap T} {r : Id} {a a' : State V T × List Id} (t : Twin a.1 a'.1) (e : a.2 = a'.2) (y : Id) :
    (buildOne spoil h r a y = none ∧ buildOne spoil h r a' y = none) ∨
    ∃ c c', buildOne spoil h r a y = some c ∧ buildOne spoil h r a' y = some c' ∧ Twin c.1 c'.1 ∧ c.2 = c'.2 := by
  unfold State.buildOne
  rw [e]
  split
  · exact .inr ⟨_, _, rfl, rfl, t, rfl⟩
  · split
    · exact .inr ⟨_, _, rfl, rfl, t.reconnect _, rfl⟩
    · exact .inl ⟨rfl, rfl⟩

theorem Twin.buildAll {h : Heap T} {r : Id} : ∀ (L : List Id) {a a' : State V T × List Id}, Twin a.1 a'.1 → a.2 = a'.2 →
    ∀ {c}, buildAll spoil h r L a = some c → ∃ c', buildAll spoil h r L a' = some c' ∧ Twin c.1 c'.1
  | [], a, a', t, _, c, hc => by
    cases hc
    exact ⟨a', rfl, t⟩
  | y :: L, a, a', t, e, c, hc => by
    unfold State.buildAll at hc ⊢
    rcases t.buildOne (spoil := spoil) (h := h) (r := r) e y with ⟨h1, -⟩ | ⟨b, b', h1, h2, tb, eb⟩
    · rw [h1] at hc; cases hc
    · rw [h1] at hc
      rw [h2]
      exact Twin.buildAll L tb eb hc

/-- The new objects, before they are connected. -/
theorem Twin.rawLoad {s s' : State V T} (t : Twin s s') (sk : Skel s.heap.toGraph) (own : Id → Bool) (x : Id) :
    Twin (⟨s.heap.rawLoad x, s.mem.rawLoad own s.heap.toGraph x⟩ : State V T)
      ⟨s.heap.rawLoad x, s'.mem.rawLoad own s.heap.toGraph x⟩ := by
  have hnd := Hier.Graph.nodup_subtree sk x
  have hcase : ∀ n, (pick (s.heap.toGraph.subtree x) s.heap.next n = none) ∨
      ∃ y, Anc s.heap.toGraph x y ∧ n = s.heap.copyOf x y := by
    intro n
    cases hp : pick (s.heap.toGraph.subtree x) s.heap.next n with
    | none => exact .inl rfl
    | some y =>
      obtain ⟨h1, h2⟩ := (pick_some hnd).mp hp
      exact .inr ⟨y, sk.mem_subtree.mp h1, h2⟩
  have hnx : (s.heap.rawCopy x).next = s.heap.next + (s.heap.toGraph.subtree x).length := rfl
  have hlo : ∀ n, pick (s.heap.toGraph.subtree x) s.heap.next n = none → (s.heap.rawCopy x).leaf n = s.heap.leaf n := by
    intro n hn
    show (match pick (s.heap.toGraph.subtree x) s.heap.next n with
      | none => s.heap.leaf n
      | some y => _) = _
    rw [hn]
  have hko : ∀ n, pick (s.heap.toGraph.subtree x) s.heap.next n = none → (s.heap.rawCopy x).kids n = s.heap.kids n := by
    intro n hn
    show (match pick (s.heap.toGraph.subtree x) s.heap.next n with
      | none => s.heap.kids n
      | some y => _) = _
    rw [hn]
  refine ⟨rfl, ?_, ?_, ?_, ?_⟩
  · intro n hn
    have hn : (s.heap.rawCopy x).leaf n = true := hn
    show (s.heap.rawCopy x).kids n = []
    rcases hcase n with hp | ⟨y, hy, rfl⟩
    · rw [hko n hp]
      exact t.kids n ((hlo n hp).symm.trans hn)
    · rw [Heap.raw_kids_new sk hy, t.kids y ((Heap.raw_leaf_new sk hy).symm.trans hn)]
      rfl
  · intro n hn
    have hn : (s.heap.rawCopy x).leaf n = true := hn
    show n < (s.heap.rawCopy x).next
    rw [hnx]
    rcases hcase n with hp | ⟨y, hy, rfl⟩
    · exact Nat.lt_of_lt_of_le (t.lt n ((hlo n hp).symm.trans hn)) (Nat.le_add_right _ _)
    · exact Nat.add_lt_add_left (List.idxOf_lt_length_of_mem (sk.mem_subtree.mpr hy)) _
  · exact t.near.rawLoad own x t.lt (fun k hk => hlo k (pick_none.mpr (.inl hk)))
  · exact Nat.lt_of_lt_of_le t.pos (Nat.le_add_right _ _)

theorem Twin.load {s s' t : State V T} (tw : Twin s s') (sk : Skel s.heap.toGraph) {own : Id → Bool}
    {refs : Id → List Id} {x r : Id} (hl : s.load spoil own refs x = some (t, r)) :
    ∃ t', s'.load spoil own refs x = some (t', r) ∧ Twin t t' := by
  obtain ⟨h', m'⟩ := s'
  obtain rfl : h' = s.heap := tw.heap
  unfold State.load at hl ⊢
  simp only [Option.map_eq_some_iff, Prod.mk.injEq] at hl ⊢
  obtain ⟨c, hc, rfl, rfl⟩ := hl
  have tr := tw.rawLoad sk own (s.heap.toGraph.highest x)
  obtain ⟨c', hc', tc⟩ := Twin.buildAll
    (a := (⟨s.heap.rawLoad (s.heap.toGraph.highest x), s.mem.rawLoad own s.heap.toGraph (s.heap.toGraph.highest x)⟩, []))
    (a' := (⟨s.heap.rawLoad (s.heap.toGraph.highest x), m'.rawLoad own s.heap.toGraph (s.heap.toGraph.highest x)⟩, []))
    _ tr rfl hc
  exact ⟨c'.1, ⟨c', hc', rfl, rfl⟩, tc⟩

/-- What is known of the arrays of a loaded model. -/
theorem gload_mem {s : State V T} (h : GReach spoil s) {refs : Id → List Id} (hr : s.heap.Refs refs) {x : Id}
    (hx : x < s.heap.next) (hp : s.heap.parent x = none) (junk : Id → Nat → V) :
    ∃ (N : Nat) (c : State V T) (L0 : List (Id × GVal V)),
      s.gload spoil refs x junk = some (c.assign L0, s.heap.copyOf x x) ∧
      (∀ w ∈ L0, ∃ y, Anc s.heap.toGraph x y ∧ w.1 = s.heap.copyOf x y) ∧
      (∀ n v, n < s.heap.next → c.mem.arr n = some v → v.buf < N) ∧
      (∀ n, n < s.heap.next → c.heap.size n = s.heap.size n) ∧
      (∀ n, n < s.heap.next → (s.heap.leaf n = true ∨ Done s.heap n) → 0 < s.heap.size n →
        ∃ v, c.mem.arr n = some v) ∧
      (∀ n, n < s.heap.next → (s.heap.leaf n = true ∨ Done s.heap n) → ∀ i, i < s.heap.size n →
        c.mem.read n i = s.mem.read n i) ∧
      (∀ y v, Anc s.heap.toGraph x y → c.mem.arr (s.heap.copyOf x y) = some v → N ≤ v.buf) ∧
      (∀ y, Anc s.heap.toGraph x y → c.heap.size (s.heap.copyOf x y) = s.heap.size y) ∧
      ∃ b o, ∀ z k, At s.heap.toGraph x z k → 0 < s.heap.size z →
        c.mem.arr (s.heap.copyOf x z) = some ⟨b, o + k, s.heap.size z⟩ := by
  obtain ⟨t, tw, hR⟩ := h.twin
  have sk := hR.heap.wf.skel
  have hh : s.heap.toGraph.highest x = x := by
    rw [tw.heap] at hp ⊢
    exact sk.highest_eq hp .refl
  rw [tw.heap] at hr hx hp
  obtain ⟨q, hq, M⟩ := load_loadMem (spoil := spoil) hR.heap.wf hR.linked hR.bounded hr hx hp (fun _ => true)
  obtain ⟨c, hc, tc⟩ := tw.load sk hq
  refine ⟨t.mem.next, c, ((s.heap.toGraph.subtree x).filter (fun y => s.heap.leaf y && decide (0 < s.heap.size y))).map
    (fun y => (s.heap.copyOf x y, .array ((List.range (s.heap.size y)).map (junk y)))), ?_, ?_, ?_, ?_, ?_, ?_, ?_, ?_, ?_⟩
  · unfold gload
    simp only []
    rw [hh, hc, Option.map_some, Heap.copyOf_self, tw.heap]
    unfold assign
    rw [List.foldl_map]
  · intro w hw
    obtain ⟨y, hy, rfl⟩ := List.mem_map.mp hw
    have hy := (List.mem_filter.mp hy).1
    refine ⟨y, ?_, rfl⟩
    rw [tw.heap] at hy ⊢
    exact sk.mem_subtree.mp hy
  · intro n v hn hv
    rw [tw.heap] at hn
    rw [tc.arr, M.old n hn] at hv
    exact hR.bounded n v hv
  · intro n hn
    rw [tw.heap] at hn ⊢
    rw [tc.heap, show q.heap.size = (t.heap.rawCopy x).toGraph.size by rw [← M.heap.graph]]
    exact Heap.lift_old _ _ hn
  · intro n hn hd h0
    rw [tw.heap] at hn hd h0
    obtain ⟨v, hv, -⟩ := assignable_fits hR hn h0 hd
    exact ⟨v, by rw [tc.arr, M.old n hn]; exact hv⟩
  · intro n hn hd i hi
    rw [tw.heap] at hn hd hi
    rw [tc.read, tw.read, load_keeps_values hR hr hx hp (by rw [hq]) hn hd hi]
  · intro y v hy hv
    rw [tw.heap] at hy hv
    rw [tc.arr] at hv
    exact M.fresh y v hy hv
  · intro y hy
    rw [tw.heap] at hy ⊢
    rw [tc.heap, show q.heap.size = (t.heap.rawCopy x).toGraph.size by rw [← M.heap.graph]]
    exact Heap.raw_size_new sk hy
  · obtain ⟨b, o, hb⟩ := M.calm x .refl
    refine ⟨b, o, fun z k hz h0 => ?_⟩
    rw [tw.heap] at hz h0 ⊢
    rw [tc.arr]
    exact hb z k hz h0

/-- **C82.** Loading a model leaves every gradient that exists as it was. Whatever is assigned to the gradients of the
loaded model and of its parts, all other gradients stay as they were; whatever is assigned to other gradients, those of
the loaded model stay as they are. -/
theorem gradient_load_apart {s : State V T} (h : GReach spoil s) {refs : Id → List Id} (hr : s.heap.Refs refs) {x : Id}
    (hx : x < s.heap.next) (hp : s.heap.parent x = none) (junk : Id → Nat → V) :
    ∃ c, s.gload spoil refs x junk = some (c, s.heap.copyOf x x) ∧ ∀ L : List (Id × GVal V),
      ((∀ w ∈ L, ∃ y, Anc s.heap.toGraph x y ∧ w.1 = s.heap.copyOf x y) →
        ∀ n, n < s.heap.next → (s.heap.leaf n = true ∨ Done s.heap n) → (c.assign L).gradient n = s.gradient n) ∧
      ((∀ w ∈ L, w.1 < s.heap.next) → ∀ y, Anc s.heap.toGraph x y →
        (c.assign L).gradient (s.heap.copyOf x y) = c.gradient (s.heap.copyOf x y)) := by
  have w : s.heap.WF := by
    obtain ⟨t, tw, hR⟩ := h.twin
    rw [tw.heap]; exact hR.heap.wf
  obtain ⟨N, c, L0, e, h1, h2, h3, h4, h5, h6, h7, b, o, h8⟩ := gload_mem h hr hx hp junk
  refine ⟨_, e, fun L => ⟨fun hnew n hn hd => ?_, fun hold y hy => ?_⟩⟩
  · rw [assign_append]
    unfold gradient
    rw [(assign_heap _ _).1, h3 n hn]
    refine List.map_congr_left fun i hi => ?_
    have hi := List.mem_range.mp hi
    obtain ⟨v, hv⟩ := h4 n hn hd (Nat.lt_of_le_of_lt (Nat.zero_le _) hi)
    rw [assign_elsewhere i _ _ hv ?_, h5 n hn hd i hi]
    intro z hz u hu
    have hb := h2 n v hn hv
    obtain ⟨y, hy, e⟩ : ∃ y, Anc s.heap.toGraph x y ∧ z.1 = s.heap.copyOf x y := by
      rcases List.mem_append.mp hz with hz | hz
      · exact h1 z hz
      · exact hnew z hz
    rw [e] at hu
    have := h6 y u hy hu
    omega
  · unfold gradient
    rw [(assign_heap L _).1]
    refine List.map_congr_left fun i hi => ?_
    have hi := List.mem_range.mp hi
    rw [(assign_heap _ _).1, h7 y hy] at hi
    obtain ⟨k, hk⟩ := w.skel.exists_at hy
    have hv := h8 y k hk (Nat.lt_of_le_of_lt (Nat.zero_le _) hi)
    refine assign_elsewhere i L _ (by rw [(assign_heap _ _).2]; exact hv) fun z hz u hu => ?_
    rw [(assign_heap _ _).2] at hu
    have a1 := h2 z.1 u (hold z hz) hu
    have a2 := h6 y _ hy hv
    omega

/-- **C82.** In a loaded model, whatever has been assigned to gradients since, the gradient of any object is the part of
the gradient of the whole that starts at its position, and assigning the gradient of any object sets exactly its elements,
as seen through every object; nothing is raised. -/
theorem gradient_load_parts {s : State V T} (h : GReach spoil s) {refs : Id → List Id} (hr : s.heap.Refs refs) {x : Id}
    (hx : x < s.heap.next) (hp : s.heap.parent x = none) (junk : Id → Nat → V) :
    ∃ c, s.gload spoil refs x junk = some (c, s.heap.copyOf x x) ∧ ∀ L : List (Id × GVal V),
      (∀ y k, At s.heap.toGraph x y k → (c.assign L).gradient (s.heap.copyOf x y) =
        (((c.assign L).gradient (s.heap.copyOf x x)).drop k).take (s.heap.size y)) ∧
      (∀ z y a b val l, At s.heap.toGraph x z a → At s.heap.toGraph x y b → 0 < s.heap.size z →
        Means (s.heap.size z) val l →
        ((c.assign L).setGradient (s.heap.copyOf x z) val).2 = none ∧
        ∀ j, j < s.heap.size y →
          (((c.assign L).setGradient (s.heap.copyOf x z) val).1.gradient (s.heap.copyOf x y))[j]? =
          if a ≤ b + j ∧ b + j < a + s.heap.size z then l[b + j - a]?
          else ((c.assign L).gradient (s.heap.copyOf x y))[j]?) := by
  have w : s.heap.WF := by
    obtain ⟨t, tw, hR⟩ := h.twin
    rw [tw.heap]; exact hR.heap.wf
  obtain ⟨N, c, L0, e, -, -, -, -, -, -, h7, B, o, h8⟩ := gload_mem h hr hx hp junk
  refine ⟨_, e, fun L => ?_⟩
  rw [assign_append]
  have hs : ∀ y, Anc s.heap.toGraph x y → (c.assign (L0 ++ L)).heap.size (s.heap.copyOf x y) = s.heap.size y := by
    intro y hy
    rw [(assign_heap _ _).1]; exact h7 y hy
  have ha : ∀ y k, At s.heap.toGraph x y k → 0 < s.heap.size y →
      (c.assign (L0 ++ L)).mem.arr (s.heap.copyOf x y) = some ⟨B, o + k, s.heap.size y⟩ := by
    intro y k hy h0
    rw [(assign_heap _ _).2]; exact h8 y k hy h0
  generalize c.assign (L0 ++ L) = q at hs ha
  constructor
  · intro y k hy
    have hwin : k + s.heap.size y ≤ s.heap.size x := hy.window w.skel w.sized
    refine List.ext_getElem? fun j => ?_
    rw [List.getElem?_take, gradient_get, hs y (hy.anc w.skel)]
    by_cases hj : j < s.heap.size y
    · rw [if_pos hj, if_pos hj, List.getElem?_drop, gradient_get, hs x .refl, if_pos (by omega)]
      rw [Mem.read_eq (ha y k hy (by omega)), Mem.read_eq (ha x 0 .refl (by omega))]
      congr 2
      simp only [Nat.add_zero]
      omega
    · rw [if_neg hj, if_neg hj]
  · intro z y a b val l hz hy h0 hl
    have ez := ha z a hz h0
    rw [← hs z (hz.anc w.skel)] at ez hl
    obtain ⟨h1, h2, h3⟩ := set_read (v := ⟨B, o + a, q.heap.size (s.heap.copyOf x z)⟩) ⟨ez, rfl⟩ hl
    refine ⟨h1, fun j hj => ?_⟩
    have ey := ha y b hy (by omega)
    rw [gradient_get, gradient_get, h2, hs y (hy.anc w.skel), if_pos hj, if_pos hj, h3 _ _ ey j]
    rw [hs z (hz.anc w.skel)] at hl ⊢
    simp only [true_and]
    by_cases hin : a ≤ b + j ∧ b + j < a + s.heap.size z
    · rw [if_pos hin, if_pos (by omega)]
      have e : o + b + j - (o + a) = b + j - a := by omega
      rw [e, List.getElem?_eq_getElem (by rw [hl.elems.2]; omega)]
      rfl
    · rw [if_neg hin, if_neg (by omega)]

/-- `gdemo` saved and loaded. -/
def greloaded : State Nat Nat :=
  ((gdemo.gload demoSpoil gdemo.heap.attrs 0 (fun y i => 100 * y + i)).getD (start, 0)).1

/-- The loaded model has other gradients; each is a part of that of the whole. -/
example : greloaded.gradient 2 = [30, 31, 32, 40] ∧ greloaded.gradient 0 = [10, 11, 30, 31, 32, 40, 5, 5] ∧
    greloaded.gradient (gdemo.heap.copyOf 0 2) = [300, 301, 302, 400] ∧
    greloaded.gradient (gdemo.heap.copyOf 0 0) = [100, 101, 300, 301, 302, 400, 500, 501] := by decide +kernel

/-- The theorem at work: assigning to the gradient of the original. -/
example (a : Nat) : (greloaded.assign [(0, .number a)]).gradient (gdemo.heap.copyOf 0 2) =
    greloaded.gradient (gdemo.heap.copyOf 0 2) := by
  obtain ⟨c, e, hc⟩ := gradient_load_apart gdemo_path.reach (Heap.attrs_refs gdemo.heap) (x := 0) (by decide +kernel)
    (by decide +kernel) (fun y i => 100 * y + i)
  have e1 : greloaded = c := by rw [greloaded, e]; rfl
  rw [e1]
  refine (hc _).2 ?_ 2 (.of_parent (by decide +kernel))
  intro w hw
  simp only [List.mem_cons, List.not_mem_nil, or_false] at hw
  rw [hw]
  show 0 < gdemo.heap.next
  decide +kernel

end State

end Paramz.Memory
