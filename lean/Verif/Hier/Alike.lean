import Verif.Hier.CopyProps

/-!
# Hierarchies that behave alike

Two hierarchies of the same shape with the same constraints keep the same constraints when the same
calls are made on both. Used for copies (C59) and for loaded models (C70).
-/

set_option linter.unusedSectionVars false

namespace Paramz.Hier

open IndexOps (Arr Dict Iop lookup)
open Graph (Anc At Skel Sized)

namespace Heap

variable {T : Type} [DecidableEq T]

/-- `f` takes the tree of `x`, which is at place `n` of the hierarchy of `r`, to a hierarchy of its own in
`H`, and corresponding elements have the same constraints. -/
structure Twin (h H : Heap T) (r n x : Nat) (f : Id → Id) : Prop where
  root : h.parent r = none
  lt : r < h.next
  place : At h.toGraph r x n
  top : H.parent (f x) = none
  topLt : f x < H.next
  pos : ∀ y m, At h.toGraph x y m → At H.toGraph (f x) (f y) m
  leaf : ∀ y, Anc h.toGraph x y → H.leaf (f y) = h.leaf y
  size : ∀ y, Anc h.toGraph x y → H.size (f y) = h.size y
  same : ∀ t j, j < h.size x →
    (j + n ∈ lookup (h.dicts (h.iop r).1) t ↔ j ∈ lookup (H.dicts (H.iop (f x)).1) t)

theorem Twin.xlt {h H : Heap T} {r n x : Nat} {f : Id → Id} (w : WF h) (t : Twin h H r n x f) :
    x < h.next := w.skel.desc_lt (t.place.anc w.skel) t.lt

theorem Twin.flt {h H : Heap T} {r n x : Nat} {f : Id → Id} (w : WF h) (w' : WF H)
    (t : Twin h H r n x f) {y : Id} (hy : Anc h.toGraph x y) : f y < H.next := by
  obtain ⟨m, hm⟩ := w.skel.exists_at hy
  exact w'.skel.desc_lt ((t.pos y m hm).anc w'.skel) t.topLt

theorem Twin.constraints {h H : Heap T} {r n x : Nat} {f : Id → Id} (w : WF h) (w' : WF H)
    (t : Twin h H r n x f) {y : Id} (hy : Anc h.toGraph x y) (u : Con T) :
    H.constraints (f y) u = h.constraints y u := by
  obtain ⟨m, hm⟩ := w.skel.exists_at hy
  apply w.constraints_eq w' (w.skel.desc_lt hy (t.xlt w)) (t.flt w w' hy)
  intro i
  rw [w'.mem_constraints t.topLt t.top (t.pos y m hm), w.mem_constraints t.lt t.root
    (t.place.trans hm), t.size y hy]
  have hwin := hm.window w.skel w.sized
  have e1 : h.toGraph.size y = h.size y := rfl
  have e2 : h.toGraph.size x = h.size x := rfl
  refine and_congr_right (fun hi => ?_)
  rw [← t.same u (i + m) (by omega), show i + m + n = i + (n + m) by omega]

/-- The same object or part in the other hierarchy. -/
def Target.via (f : Id → Id) (z : Target) : Target := ⟨f z.obj, z.part⟩

theorem Twin.ok {h H : Heap T} {r n x : Nat} {f : Id → Id} (w : WF h) (w' : WF H)
    (t : Twin h H r n x f) {z : Target} (hz : z.OK h) (ha : Anc h.toGraph x z.obj) :
    (z.via f).OK H := by
  refine ⟨t.flt w w' ha, fun a e => ?_⟩
  obtain ⟨h1, h2⟩ := hz.part a e
  refine ⟨(t.leaf _ ha).trans h1, fun i hi => ?_⟩
  show i < H.size (f z.obj)
  rw [t.size _ ha]; exact h2 i hi

theorem Twin.eff {h H h1 H1 : Heap T} {r n x : Nat} {f : Id → Id} (t : Twin h H r n x f)
    {R R' : Con T → Nat → Prop} (e : Eff h h1 r R) (e' : Eff H H1 (f x) R')
    (hR : ∀ u j, j < h.size x → (R u (j + n) ↔ R' u j)) : Twin h1 H1 r n x f := by
  have g := e.same.graph
  have g' := e'.same.graph
  constructor
  · rw [show h1.parent = h.parent by rw [g]]; exact t.root
  · rw [show h1.next = h.next by rw [g]]; exact t.lt
  · rw [g]; exact t.place
  · rw [show H1.parent = H.parent by rw [g']]; exact t.top
  · rw [show H1.next = H.next by rw [g']]; exact t.topLt
  · rw [g, g']; exact t.pos
  · rw [g, show H1.leaf = H.leaf by rw [g']]; exact t.leaf
  · rw [g, show H1.size = H.size by rw [g']]; exact t.size
  · intro u j hj
    rw [show h1.size = h.size by rw [g]] at hj
    rw [e.same.iop, e'.same.iop, e.mem, e'.mem]
    exact hR u j hj

/-- The same call on both keeps them alike. -/
theorem Twin.step {h H : Heap T} {r n x : Nat} {f : Id → Id} (w : WF h) (w' : WF H)
    (t : Twin h H r n x f) {z : Target} (hz : z.OK h) (ha : Anc h.toGraph x z.obj) (k : Call T) :
    WF (k.run h z) ∧ WF (k.run H (z.via f)) ∧ Same h (k.run h z) ∧ Same H (k.run H (z.via f)) ∧
    Twin (k.run h z) (k.run H (z.via f)) r n x f := by
  obtain ⟨r1, o, c⟩ := hz.exists_ctx w
  obtain ⟨r2, o', c'⟩ := (t.ok w w' hz ha).exists_ctx w'
  obtain ⟨m, hm⟩ := w.skel.exists_at ha
  have hr : r1 = r := by
    rw [← c.highest]
    exact w.skel.highest_eq t.root ((t.place.trans hm).anc w.skel)
  have hr' : r2 = f x := by
    rw [← c'.highest]
    exact w'.skel.highest_eq t.top ((t.pos _ m hm).anc w'.skel)
  subst hr hr'
  have ho : o = n + m := w.skel.at_unique c.pos (t.place.trans hm)
  have ho' : o' = m := w'.skel.at_unique c'.pos (t.pos _ m hm)
  rw [ho] at c
  rw [ho'] at c'
  have hidx : (z.via f).index H = z.index h := by
    unfold Target.index Target.via
    simp only []
    rw [t.size _ ha]
  have hcov : ∀ j, Covers h z (n + m) (j + n) ↔ Covers H (z.via f) m j := by
    intro j
    unfold Covers
    rw [hidx, List.mem_map, List.mem_map]
    constructor
    · rintro ⟨i, hi, e⟩; exact ⟨i, hi, by omega⟩
    · rintro ⟨i, hi, e⟩; exact ⟨i, hi, by omega⟩
  cases k with
  | constrain u =>
    obtain ⟨a, e⟩ := constrain_spec w c u
    obtain ⟨a', e'⟩ := constrain_spec w' c' u
    exact ⟨a, a', e.same, e'.same, t.eff e e' (fun v j hj => by rw [hcov, t.same v j hj])⟩
  | unconstrain us =>
    obtain ⟨a, e⟩ := unconstrain_spec w c us
    obtain ⟨a', e'⟩ := unconstrain_spec w' c' us
    exact ⟨a, a', e.same, e'.same, t.eff e e' (fun v j hj => by rw [hcov, t.same v j hj])⟩
  | fix =>
    obtain ⟨a, e⟩ := fix_spec w c
    obtain ⟨a', e'⟩ := fix_spec w' c'
    exact ⟨a, a', e.same, e'.same, t.eff e e' (fun v j hj => by rw [hcov, t.same v j hj])⟩
  | unfix =>
    obtain ⟨a, e⟩ := unfix_spec w c
    obtain ⟨a', e'⟩ := unfix_spec w' c'
    exact ⟨a, a', e.same, e'.same, t.eff e e' (fun v j hj => by rw [hcov, t.same v j hj])⟩

/-- Several calls, one after the other. -/
def runCalls (h : Heap T) (L : List (Target × Call T)) : Heap T :=
  L.foldl (fun h a => a.2.run h a.1) h

/-- The same calls on both keep them alike. -/
theorem Twin.calls {r n x : Nat} {f : Id → Id} : ∀ (L : List (Target × Call T)) {h H : Heap T},
    WF h → WF H → Twin h H r n x f →
    (∀ a ∈ L, a.1.OK h ∧ Anc h.toGraph x a.1.obj) →
    WF (h.runCalls L) ∧ WF (H.runCalls (L.map fun a => (a.1.via f, a.2))) ∧
    Same h (h.runCalls L) ∧ Same H (H.runCalls (L.map fun a => (a.1.via f, a.2))) ∧
    Twin (h.runCalls L) (H.runCalls (L.map fun a => (a.1.via f, a.2))) r n x f
  | [], h, H, w, w', t, _ => ⟨w, w', .refl h, .refl H, t⟩
  | a :: L, h, H, w, w', t, hL => by
    obtain ⟨h1, h2⟩ := hL a (by simp)
    obtain ⟨u, u', s, s', t'⟩ := t.step w w' h1 h2 a.2
    obtain ⟨v, v', q, q', t''⟩ := Twin.calls L u u' t' (fun b hb => by
      obtain ⟨h3, h4⟩ := hL b (by simp [hb])
      exact ⟨h3.same s, by rw [s.graph]; exact h4⟩)
    exact ⟨v, v', s.trans q, s'.trans q', t''⟩

/-- A root has the mask its constraints ask for. -/
theorem WF.ensureFixes_eq {h : Heap T} (w : WF h) {r : Id} (hr : r < h.next) (hp : h.parent r = none)
    (hl : h.leaf r = false) : h.ensureFixes r = maskOf (h.size r) (h.constraints r .fixed) := by
  have hc : h.constraints r .fixed = lookup (h.dicts (h.iop r).1) .fixed := by
    unfold Heap.constraints; rw [(w.root r hr hp).1, Iop.get_base]
  unfold ensureFixes
  simp only [hl, Bool.false_eq_true, if_false]
  cases hf : h.fixes r with
  | none => rfl
  | some m =>
    simp only
    split
    · rfl
    · rename_i hlen
      rw [hc]
      exact (w.mask r hr hp hl m hf).2 (not_not.mp hlen)

/-- A copy stays equal to its original: whatever constraining calls are made on objects of `x`, made on
the copies of these objects instead they lead to the same constraints. -/
theorem copy_alike {h : Heap T} (hr : Reach h) {x : Id} (ok : h.CopyOK x)
    (L : List (Target × Call T)) (hL : ∀ a ∈ L, a.1.OK h ∧ Anc h.toGraph x a.1.obj) {y : Id}
    (hy : Anc h.toGraph x y) (t : Con T) :
    ((h.copy x).1.runCalls (L.map fun a => (⟨h.copyOf x a.1.obj, a.1.part⟩, a.2))).constraints
      (h.copyOf x y) t = (h.runCalls L).constraints y t := by
  have w := hr.wf
  have s := w.skel
  have w' := copied_wf w ok.lt
  obtain ⟨-, ct⟩ := copy_shape hr ok
  obtain ⟨r, hrp, hra⟩ := s.exists_root x
  have hrlt := s.anc_lt hra ok.lt
  obtain ⟨n, hn⟩ := s.exists_at hra
  obtain ⟨c, -⟩ := copy_copied s ok.lt
  have hgB := beforeCopy_graph h x
  have wB := beforeCopy_wf w x
  have hco := copyOf_graph hgB x
  have hpos : ∀ y m, At h.toGraph x y m →
      At (h.copy x).1.toGraph (h.copyOf x x) (h.copyOf x y) m := by
    intro y m hm
    have hmB : At (h.beforeCopy x).toGraph x y m := by rw [hgB]; exact hm
    have := raw_at wB.skel hmB
    rw [← c.graph, hco, hco] at this
    exact this
  have tw : Twin h (h.copy x).1 r n x (h.copyOf x) := by
    refine ⟨hrp, hrlt, hn, ct.top, (ct.fresh x .refl).2, hpos, ct.leaf, ct.size, fun t j hj => ?_⟩
    have h1 := w.mem_constraints hrlt hrp hn (t := t) (i := j)
    have h2 := w'.mem_constraints (ct.fresh x .refl).2 ct.top (.refl) (t := t) (i := j)
    rw [copy_constraints hr ok .refl, ct.size x .refl] at h2
    simp only [hj, true_and] at h1 h2
    rw [← h1, h2]; rfl
  obtain ⟨v, v', q, -, t'⟩ := tw.calls L w w' hL
  exact t'.constraints v v' (by rw [q.graph]; exact hy) t

end Heap

end Paramz.Hier
