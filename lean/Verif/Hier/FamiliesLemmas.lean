import Verif.Hier.Families

/-!
# Every family of index operations behaves like `constraints` (lemmas for C80)

A name other than `constraints` is followed by a `Heap` with the same pointers and flags whose dictionaries are those
of the name (`Sim`). No key of these dictionaries is `__fixed__`, so that `_connect_fixes` does not change them.
-/

set_option linter.unusedSectionVars false

namespace Paramz.Hier

open IndexOps (Arr Dict Iop)

/-! ### Keys -/

section Keys

variable {P : Type} [DecidableEq P]

/-- No entry for `z`. -/
def Without (z : P) (d : Dict P) : Prop := ∀ e ∈ d, e.1 ≠ z

theorem Without.setKey {z p : P} {d : Dict P} (hd : Without z d) (hp : p ≠ z) (a : Arr) :
    Without z (IndexOps.setKey d p a) := by
  induction d with
  | nil => intro e he; simp only [IndexOps.setKey, List.mem_singleton] at he; subst he; exact hp
  | cons e r ih =>
    obtain ⟨q, b⟩ := e
    simp only [IndexOps.setKey]
    have h1 := hd (q, b) (by simp)
    have h2 := ih (fun e he => hd e (by simp [he]))
    split
    · intro e he
      rcases List.mem_cons.mp he with rfl | he
      · exact h1
      · exact hd e (by simp [he])
    · intro e he
      rcases List.mem_cons.mp he with rfl | he
      · exact h1
      · exact h2 e he

theorem Without.sub {z : P} {d d' : Dict P} (hd : Without z d) (h : ∀ e ∈ d', ∃ e' ∈ d, e'.1 = e.1) :
    Without z d' := by
  intro e he
  obtain ⟨e', h1, h2⟩ := h e he
  rw [← h2]; exact hd e' h1

theorem Without.remove {z p : P} {d : Dict P} (hd : Without z d) (ind : Arr) :
    Without z (IndexOps.remove d p ind).1 := by
  unfold IndexOps.remove
  split
  · rename_i hk
    simp only
    split
    · apply hd.setKey
      intro hp
      simp only [IndexOps.hasKey, List.any_eq_true, decide_eq_true_eq] at hk
      obtain ⟨e, he, h1⟩ := hk
      exact hd e he (h1.trans hp)
    · exact hd.sub (fun e he => ⟨e, (List.mem_filter.mp he).1, rfl⟩)
  · exact hd

theorem Without.add {z p : P} {d : Dict P} (hd : Without z d) (hp : p ≠ z) (v : Iop) (ind : Arr) :
    Without z (v.add d p ind) := by
  induction v generalizing ind with
  | base => exact hd.setKey hp _
  | view u o s ih => exact ih _

theorem Without.removeV {z p : P} {d : Dict P} (hd : Without z d) (v : Iop) (ind : Arr) :
    Without z (v.remove d p ind).1 := by
  induction v generalizing ind with
  | base => exact hd.remove _
  | view u o s ih => exact ih _

theorem Without.items {z : P} {d : Dict P} (hd : Without z d) (v : Iop) : Without z (v.items d) := by
  induction v with
  | base => exact hd.sub (fun e he => ⟨e, (List.mem_filter.mp he).1, rfl⟩)
  | view u o s ih =>
    refine ih.sub (fun e he => ?_)
    obtain ⟨e', h1, rfl⟩ := List.mem_map.mp (List.mem_filter.mp he).1
    exact ⟨e', h1, rfl⟩

theorem Without.shiftRight {z : P} {d : Dict P} (hd : Without z d) (v : Iop) (st n : Nat) :
    Without z (v.shiftRight d st n) := by
  induction v generalizing st with
  | base =>
    refine hd.sub (fun e he => ?_)
    obtain ⟨e', h1, rfl⟩ := List.mem_map.mp he
    exact ⟨e', h1, rfl⟩
  | view u o s ih => exact ih _

theorem Without.shiftLeft {z : P} {d : Dict P} (hd : Without z d) (v : Iop) (st n : Nat) :
    Without z (v.shiftLeft d st n) := by
  induction v generalizing st with
  | base =>
    refine hd.sub (fun e he => ?_)
    obtain ⟨e', h1, h2⟩ := List.mem_filterMap.mp he
    refine ⟨e', h1, ?_⟩
    split at h2
    · cases h2; rfl
    · split at h2
      · cases h2
      · cases h2; rfl
  | view u o s ih => exact ih _

theorem Without.foldl {α : Type} {z : P} {f : Dict P → α → Dict P} {l : List α}
    (h : ∀ d, ∀ e ∈ l, Without z d → Without z (f d e)) : ∀ {d : Dict P}, Without z d → Without z (l.foldl f d) := by
  induction l with
  | nil => intro d hd; exact hd
  | cons a r ih =>
    intro d hd
    exact ih (fun d e he => h d e (by simp [he])) (h d a (by simp) hd)

theorem Without.clear {z : P} {d : Dict P} (hd : Without z d) (v : Iop) : Without z (v.clear d) := by
  cases v with
  | base => intro e he; cases he
  | view u o s => exact Without.foldl (fun d e _ h => h.removeV u _) hd

theorem Without.update {z : P} {d : Dict P} (hd : Without z d) (v : Iop) {its : List (P × Arr)}
    (hi : Without z its) (o : Nat) : Without z (v.update d its o) :=
  Without.foldl (fun _ e he h => h.add (hi e he) v _) hd

theorem Without.copy {z : P} {d : Dict P} (hd : Without z d) (v : Iop) : Without z (v.copy d) :=
  Without.foldl (fun _ e he h => h.setKey (hd.items v e he) _) (fun e he => by cases he)

theorem Without.getItem {z : P} {d : Dict P} (hd : Without z d) (v : Iop) :
    v.getItem d z = (d ++ [(z, [])], []) := by
  have hk : IndexOps.hasKey d z = false := by
    simp only [IndexOps.hasKey, List.any_eq_false, decide_eq_true_eq]
    exact fun e he => hd e he
  induction v with
  | base => simp [Iop.getItem, IndexOps.getItem, hk]
  | view u o s ih => simp [Iop.getItem, ih, Iop.filterIndex]

theorem lookup_append_new {z : P} {d : Dict P} (hd : Without z d) : IndexOps.lookup (d ++ [(z, [])]) z = [] := by
  induction d with
  | nil => simp [IndexOps.lookup]
  | cons e r ih =>
    obtain ⟨q, a⟩ := e
    have := hd (q, a) (by simp)
    simp only [List.cons_append, IndexOps.lookup]
    rw [if_neg this]
    exact ih (fun e he => hd e (by simp [he]))

theorem delKey_append_new {z : P} {d : Dict P} (hd : Without z d) : IndexOps.delKey (d ++ [(z, [])]) z = d := by
  simp only [IndexOps.delKey, List.filter_append]
  rw [List.filter_eq_self.mpr (fun e he => by simpa using hd e he)]
  simp

theorem hasKey_append_new {z : P} {d : Dict P} : IndexOps.hasKey (d ++ [(z, [])]) z = true := by
  simp [IndexOps.hasKey]

theorem getItem_append_new {z : P} {d : Dict P} (hd : Without z d) (v : Iop) :
    v.getItem (d ++ [(z, [])]) z = (d ++ [(z, [])], []) := by
  induction v with
  | base => simp [Iop.getItem, IndexOps.getItem, hasKey_append_new, lookup_append_new hd]
  | view u o s ih => simp [Iop.getItem, ih, Iop.filterIndex]

theorem remove_append_new {z : P} {d : Dict P} (hd : Without z d) (v : Iop) :
    (v.remove (d ++ [(z, [])]) z []).1 = d := by
  induction v with
  | base =>
    simp [Iop.remove, IndexOps.remove, hasKey_append_new, lookup_append_new hd, IndexOps.setdiff1d,
      delKey_append_new hd]
  | view u o s ih => simpa [Iop.remove] using ih

theorem delItem_append_new {z : P} {d : Dict P} (hd : Without z d) (v : Iop) :
    v.delItem (d ++ [(z, [])]) z = .ok d := by
  cases v with
  | base => simp [Iop.delItem, IndexOps.delItem, hasKey_append_new, delKey_append_new hd]
  | view u o s =>
    simp only [Iop.delItem]
    rw [getItem_append_new hd]
    simp only
    rw [remove_append_new hd]

end Keys

/-! ### The relation -/

variable {T N : Type} [DecidableEq T] [DecidableEq N]

/-- Same pointers, sizes and flags. -/
structure Like (b h : Heap T) : Prop where
  graph : h.toGraph = b.toGraph
  inInit : h.inInit = b.inInit
  inited : h.inited = b.inited
  visited : h.visited = b.visited

theorem Like.rfl' (b : Heap T) : Like b b := ⟨rfl, rfl, rfl, rfl⟩

namespace Multi

/-- `h` follows the name `f`. -/
structure Sim (m : Multi T N) (h : Heap T) (f : N) : Prop extends Like m.base h where
  iop : h.iop = (m.fam f).iop
  dicts : h.dicts = (m.fam f).dicts
  nextDict : h.nextDict = (m.fam f).nextDict
  clean : ∀ d, Without .fixed (h.dicts d)

/-- All objects have the further names `ns`. -/
structure Uni (m : Multi T N) (ns : List N) : Prop where
  nodup : ns.Nodup
  names : ∀ y, y < m.base.next → m.names y = ns
  closed : ∀ x, ∀ c ∈ m.base.kids x, c < m.base.next
  up : ∀ x p, m.base.parent x = some p → p < m.base.next

theorem Uni.highestF {m : Multi T N} {ns : List N} (hu : Uni m ns) : ∀ (n : Nat) (x : Id), x < m.base.next →
    Graph.highestF n m.base.toGraph x < m.base.next
  | 0, x, hx => hx
  | n + 1, x, hx => by
    simp only [Graph.highestF]
    cases hp : m.base.parent x with
    | none => exact hx
    | some p => exact hu.highestF n p (hu.up x p hp)

theorem Uni.highest {m : Multi T N} {ns : List N} (hu : Uni m ns) {x : Id} (hx : x < m.base.next) :
    m.base.toGraph.highest x < m.base.next := hu.highestF _ x hx

/-- `m'` comes from `m` by what `op` does to `constraints`, for every name. -/
structure Step (ns : List N) (m m' : Multi T N) (op : Heap T → Heap T) : Prop where
  base : m'.base = op m.base
  next : m'.base.next = m.base.next
  uni : Uni m' ns
  like : ∀ h, Like m.base h → Like m'.base (op h)
  sim : ∀ f ∈ ns, ∀ h, Sim m h f → Sim m' (op h) f

variable {ns : List N} {m m' : Multi T N}

theorem Step.trans {m1 m2 : Multi T N} {o1 o2 : Heap T → Heap T} (s1 : Step ns m m1 o1) (s2 : Step ns m1 m2 o2) :
    Step ns m m2 (fun h => o2 (o1 h)) :=
  ⟨by rw [s2.base, s1.base], by rw [s2.next, s1.next], s2.uni,
    fun h hl => s2.like _ (s1.like h hl), fun f hf h hs => s2.sim f hf _ (s1.sim f hf h hs)⟩

theorem Step.congr {op op' : Heap T → Heap T} (s : Step ns m m' op) (e : ∀ h, Like m.base h → op' h = op h) :
    Step ns m m' op' :=
  ⟨by rw [s.base, e _ (Like.rfl' _)], s.next, s.uni,
    fun h hl => by rw [e h hl]; exact s.like h hl,
    fun f hf h hs => by rw [e h hs.toLike]; exact s.sim f hf h hs⟩

theorem Step.refl (hu : Uni m ns) : Step ns m m id := ⟨rfl, rfl, hu, fun _ hl => hl, fun _ _ _ hs => hs⟩

theorem Step.setBase {op : Heap T → Heap T} (hu : Uni m ns) (hn : (op m.base).next = m.base.next)
    (hk : ∀ x, ∀ c ∈ (op m.base).kids x, c < (op m.base).next)
    (hp : ∀ x p, (op m.base).parent x = some p → p < (op m.base).next)
    (hl : ∀ h, Like m.base h → Like (op m.base) (op h))
    (hf : ∀ h : Heap T, (∀ d, Without .fixed (h.dicts d)) →
      (op h).iop = h.iop ∧ (op h).dicts = h.dicts ∧ (op h).nextDict = h.nextDict) :
    Step ns m (m.setBase (op m.base)) op where
  base := rfl
  next := hn
  uni := ⟨hu.nodup, fun y hy => hu.names y (by rw [← hn]; exact hy), hk, hp⟩
  like := hl
  sim := fun f _ h hs => by
    obtain ⟨h1, h2, h3⟩ := hf h hs.clean
    exact ⟨hl h hs.toLike, by rw [h1, hs.iop]; rfl, by rw [h2, hs.dicts]; rfl, by rw [h3, hs.nextDict]; rfl,
      by rw [h2]; exact hs.clean⟩

/-! ### Loops over the names -/

theorem reviewAll_eq (top x : Id) : ∀ (fs : List N) (m : Multi T N), fs.Nodup → (∀ f ∈ fs, f ∈ m.names top) →
    m.reviewAll top x fs =
      ({ m with fam := fun g => if g ∈ fs then
          (m.fam g).review top x (m.base.toGraph.offsetFor top x) (m.base.size x) else m.fam g }, false)
  | [], m, _, _ => by simp [reviewAll]
  | f :: fs, m, hd, hs => by
    rw [reviewAll, if_pos (hs f (by simp)), reviewAll_eq top x fs
      (m.setFam f ((m.fam f).review top x (m.base.toGraph.offsetFor top x) (m.base.size x)))
      (List.nodup_cons.mp hd).2 (fun g hg => hs g (by simp [hg]))]
    have hf := (List.nodup_cons.mp hd).1
    congr 1
    simp only [setFam, Multi.mk.injEq, true_and]
    funext g
    by_cases hg : g = f
    · subst hg; simp [hf]
    · simp [hg]

theorem gapAll_eq (p x : Id) (start off : Nat) : ∀ (fs : List N) (m : Multi T N), fs.Nodup →
    (∀ f ∈ fs, f ∈ m.names x) →
    m.gapAll p x start off fs =
      ({ m with fam := fun g => if g ∈ fs then
          ((m.fam g).gap p start (m.base.size x)).fill p x off else m.fam g }, false)
  | [], m, _, _ => by simp [gapAll]
  | f :: fs, m, hd, hs => by
    rw [gapAll, if_pos (hs f (by simp)), gapAll_eq p x start off fs
      (m.setFam f (((m.fam f).gap p start (m.base.size x)).fill p x off))
      (List.nodup_cons.mp hd).2 (fun g hg => hs g (by simp [hg]))]
    have hf := (List.nodup_cons.mp hd).1
    congr 1
    simp only [setFam, Multi.mk.injEq, true_and]
    funext g
    by_cases hg : g = f
    · subst hg; simp [hf]
    · simp [hg]

theorem foldl_setFam (φ : Fam T → Fam T) : ∀ (fs : List N) (m : Multi T N), fs.Nodup →
    fs.foldl (fun m f => m.setFam f (φ (m.fam f))) m =
      { m with fam := fun g => if g ∈ fs then φ (m.fam g) else m.fam g }
  | [], m, _ => by simp
  | f :: fs, m, hd => by
    rw [List.foldl_cons, foldl_setFam φ fs _ (List.nodup_cons.mp hd).2]
    have hf := (List.nodup_cons.mp hd).1
    simp only [setFam, Multi.mk.injEq, true_and]
    funext g
    by_cases hg : g = f
    · subst hg; simp [hf]
    · simp [hg]

/-! ### Steps -/

theorem untilError_step {step : Multi T N → Id → Multi T N × Bool} {op : Id → Heap T → Heap T} {k : Nat}
    (hstep : ∀ m c, Uni m ns → m.base.next = k → c < k → ∃ m', step m c = (m', false) ∧ Step ns m m' (op c)) :
    ∀ (cs : List Id) (m : Multi T N), Uni m ns → m.base.next = k → (∀ c ∈ cs, c < k) →
      ∃ m', untilError step m cs = (m', false) ∧ Step ns m m' (fun h => cs.foldl (fun h c => op c h) h)
  | [], m, hu, _, _ => ⟨m, rfl, Step.refl hu⟩
  | c :: cs, m, hu, hk, hc => by
    obtain ⟨m1, e1, s1⟩ := hstep m c hu hk (hc c (by simp))
    obtain ⟨m2, e2, s2⟩ := untilError_step hstep cs m1 s1.uni (s1.next.trans hk) (fun c h => hc c (by simp [h]))
    refine ⟨m2, ?_, s1.trans s2⟩
    simp [untilError, e1, e2]

/-- `_parent_changed` of one object. -/
def _root_.Paramz.Hier.Heap.renew (h : Heap T) (top x : Id) : Heap T :=
  { h with
    iop := upd h.iop x ((h.iop top).1, .view (h.iop top).2 (h.toGraph.offsetFor top x) (h.size x))
    fixes := upd h.fixes x none }

theorem parentChangedF_step (top : Id) : ∀ (n : Nat) (m : Multi T N) (x : Id), Uni m ns → top < m.base.next →
    x < m.base.next →
    ∃ m', parentChangedF n m top x = (m', false) ∧ Step ns m m' (fun h => Heap.parentChangedF n h top x)
  | 0, m, x, hu, _, _ => ⟨m, rfl, Step.refl hu⟩
  | n + 1, m, x, hu, ht, hx => by
    simp only [parentChangedF]
    rw [reviewAll_eq top x _ _ (by rw [hu.names x hx]; exact hu.nodup)
      (by intro f hf; show f ∈ m.names top; rw [hu.names top ht]; rw [hu.names x hx] at hf; exact hf)]
    simp only [Bool.false_eq_true, if_false, setBase, hu.names x hx]
    set m1 : Multi T N := ⟨m.base.renew top x, m.names, fun g => if g ∈ ns then
      (m.fam g).review top x (m.base.toGraph.offsetFor top x) (m.base.size x) else m.fam g⟩ with hm1
    have s1 : Step ns m m1 (fun h => h.renew top x) := by
      refine ⟨rfl, rfl, ⟨hu.nodup, hu.names, hu.closed, hu.up⟩, fun h hl => ⟨hl.graph, hl.inInit, hl.inited, hl.visited⟩,
        fun f hf h hs => ?_⟩
      refine ⟨⟨hs.graph, hs.inInit, hs.inited, hs.visited⟩, ?_, ?_, ?_, hs.clean⟩
      · simp only [hm1, Heap.renew, if_pos hf, Fam.review, hs.iop, hs.graph]
      · simp only [hm1, Heap.renew, if_pos hf, Fam.review, hs.dicts]
      · simp only [hm1, Heap.renew, if_pos hf, Fam.review, hs.nextDict]
    obtain ⟨m2, e2, s2⟩ := untilError_step (ns := ns) (step := fun m c => parentChangedF n m top c)
      (op := fun c h => Heap.parentChangedF n h top c) (k := m.base.next)
      (fun m' c h1 h2 h3 => parentChangedF_step top n m' c h1 (by rw [h2]; exact ht) (by rw [h2]; exact h3))
      (m.base.kids x) m1 s1.uni rfl (hu.closed x)
    refine ⟨m2, e2, (s1.trans s2).congr (fun h hl => ?_)⟩
    simp only [Heap.parentChangedF]
    rw [show h.kids = m.base.kids by rw [hl.graph]]
    rfl

theorem notify_step (hu : Uni m ns) {x : Id} (hx : x < m.base.next) :
    ∃ m', m.notifyParentChange x = (m', false) ∧ Step ns m m' (fun h => h.notifyParentChange x) := by
  obtain ⟨m', e, s⟩ := untilError_step (ns := ns) (step := fun m' c => parentChangedF m.base.toGraph.fuel m' x c)
    (op := fun c h => Heap.parentChangedF m.base.toGraph.fuel h x c) (k := m.base.next)
    (fun m' c h1 h2 h3 => parentChangedF_step x _ m' c h1 (by rw [h2]; exact hx) (by rw [h2]; exact h3))
    (m.base.kids x) m hu rfl (hu.closed x)
  refine ⟨m', e, s.congr (fun h hl => ?_)⟩
  simp only [Heap.notifyParentChange]
  rw [show h.kids = m.base.kids by rw [hl.graph], hl.graph]

theorem connect_like {b h : Heap T} (hl : Like b h) (x : Id) : Like (b.connect x) (h.connect x) := by
  obtain ⟨h1, h2, h3, h4⟩ := hl
  have hk : h.kids = b.kids := by rw [h1]
  refine ⟨?_, h2, ?_, h4⟩
  · simp only [Heap.connect, h1]
  · simp only [Heap.connect, h1, h3]

theorem connect_step (hu : Uni m ns) {x : Id} (hx : x < m.base.next) :
    Step ns m (m.setBase (m.base.connect x)) (fun h => h.connect x) :=
  Step.setBase (op := fun h => h.connect x) hu rfl hu.closed (fun y p hp => by
    have hp : (if y ∈ m.base.kids x then some x else m.base.parent y) = some p := hp
    show p < m.base.next
    split at hp
    · cases hp; exact hx
    · exact hu.up y p hp) (fun _ hl => connect_like hl x) (fun _ _ => ⟨rfl, rfl, rfl⟩)

theorem upd_self {α : Type} (f : Nat → α) (d : Nat) : upd f d (f d) = f := by
  funext y
  by_cases hy : y = d
  · subst hy; exact upd_same ..
  · exact upd_ne _ _ hy

theorem connectFixes_keeps {h : Heap T} (x : Id) :
    (h.connectFixes x).toGraph = h.toGraph ∧ (h.connectFixes x).inInit = h.inInit ∧
    (h.connectFixes x).inited = h.inited ∧ (h.connectFixes x).visited = h.visited ∧
    (h.connectFixes x).iop = h.iop ∧ (h.connectFixes x).nextDict = h.nextDict := by
  simp only [Heap.connectFixes]
  split <;> exact ⟨rfl, rfl, rfl, rfl, rfl, rfl⟩

theorem connectFixes_like {b h : Heap T} (hl : Like b h) (x : Id) :
    Like (b.connectFixes x) (h.connectFixes x) := by
  obtain ⟨a1, a2, a3, a4, _⟩ := connectFixes_keeps (h := h) x
  obtain ⟨b1, b2, b3, b4, _⟩ := connectFixes_keeps (h := b) x
  exact ⟨by rw [a1, b1, hl.graph], by rw [a2, b2, hl.inInit], by rw [a3, b3, hl.inited], by rw [a4, b4, hl.visited]⟩

theorem connectFixes_dicts {h : Heap T} (hc : ∀ d, Without .fixed (h.dicts d)) (x : Id) :
    (h.connectFixes x).dicts = h.dicts := by
  simp only [Heap.connectFixes]
  rw [(hc (h.iop x).1).getItem]
  simp only [ne_eq, not_true_eq_false, if_false]
  rw [delItem_append_new (hc _)]
  exact upd_self _ _

theorem connectFixes_step (hu : Uni m ns) (x : Id) :
    Step ns m (m.setBase (m.base.connectFixes x)) (fun h => h.connectFixes x) := by
  obtain ⟨b1, _⟩ := connectFixes_keeps (h := m.base) x
  refine Step.setBase (op := fun h => h.connectFixes x) hu (by rw [b1]) (by rw [b1]; exact hu.closed)
    (by rw [b1]; exact hu.up) (fun _ hl => connectFixes_like hl x)
    (fun h hc => ?_)
  obtain ⟨_, _, _, _, a5, a6⟩ := connectFixes_keeps (h := h) x
  exact ⟨a5, connectFixes_dicts hc x, a6⟩

/-- Sizes along a list of objects. -/
def _root_.Paramz.Hier.Heap.resize (φ : Nat → Nat) (l : List Id) (h : Heap T) : Heap T :=
  l.foldl (fun h y => { h with size := upd h.size y (φ (h.size y)) }) h

theorem resize_step (φ : Nat → Nat) : ∀ (l : List Id) (m : Multi T N), Uni m ns →
    Step ns m (m.setBase (m.base.resize φ l)) (fun h => h.resize φ l)
  | [], m, hu => Step.refl hu
  | y :: l, m, hu => by
    have s1 : Step ns m (m.setBase { m.base with size := upd m.base.size y (φ (m.base.size y)) })
        (fun h => { h with size := upd h.size y (φ (h.size y)) }) := by
      refine Step.setBase (op := fun h => { h with size := upd h.size y (φ (h.size y)) }) hu rfl hu.closed
        hu.up (fun h hl => ?_) (fun _ _ => ⟨rfl, rfl, rfl⟩)
      obtain ⟨h1, h2, h3, h4⟩ := hl
      exact ⟨by simp only [h1], h2, h3, h4⟩
    exact s1.trans (resize_step φ l _ s1.uni)

theorem addSizes_step (hu : Uni m ns) (x : Id) (n : Nat) :
    Step ns m (m.setBase (m.base.addSizes x n)) (fun h => h.addSizes x n) :=
  (resize_step (· + n) (m.base.toGraph.upwards x) m hu).congr (fun h hl => by
    simp only [Heap.addSizes, Heap.resize, hl.graph])

theorem subSizes_step (hu : Uni m ns) (x : Id) (n : Nat) :
    Step ns m (m.setBase (m.base.subSizes x n)) (fun h => h.subSizes x n) :=
  (resize_step (· - n) (m.base.toGraph.upwards x) m hu).congr (fun h hl => by
    simp only [Heap.subSizes, Heap.resize, hl.graph])

theorem linkPointers_step (hu : Uni m ns) {p x : Id} (hp : p < m.base.next) (hx : x < m.base.next)
    (index : Option Int) :
    ∃ m', m.linkPointers p x index = (m', false) ∧ Step ns m m' (fun h => h.linkPointers p x index) := by
  simp only [linkPointers]
  rw [gapAll_eq p x _ _ _ _ (by rw [hu.names p hp]; exact hu.nodup)
    (by intro f hf; show f ∈ m.names x; rw [hu.names x hx]; rw [hu.names p hp] at hf; exact hf)]
  simp only [Bool.false_eq_true, if_false]
  have lk : ∀ h, Like m.base h → Like (m.base.linkPointers p x index) (h.linkPointers p x index) := by
    intro h hl
    refine ⟨?_, hl.inInit, hl.inited, hl.visited⟩
    simp only [Heap.linkPointers, hl.graph]
  refine ⟨_, rfl, rfl, rfl, ⟨hu.nodup, hu.names, ?_, ?_⟩, lk, fun f hf h hs => ?_⟩
  · intro z c hc
    have hc : c ∈ upd m.base.kids p ((m.base.kids p).take (Heap.insertPos (m.base.kids p) index) ++ x ::
      (m.base.kids p).drop (Heap.insertPos (m.base.kids p) index)) z := hc
    show c < m.base.next
    by_cases hz : z = p
    · subst hz
      rw [upd_same] at hc
      rcases List.mem_append.mp hc with h1 | h1
      · exact hu.closed z c (List.mem_of_mem_take h1)
      · rcases List.mem_cons.mp h1 with rfl | h1
        · exact hx
        · exact hu.closed z c (List.mem_of_mem_drop h1)
    · rw [upd_ne _ _ hz] at hc
      exact hu.closed z c hc
  · intro z q hq
    have hq : upd m.base.parent x (some p) z = some q := hq
    show q < m.base.next
    by_cases hz : z = x
    · subst hz; rw [upd_same] at hq; cases hq; exact hp
    · rw [upd_ne _ _ hz] at hq; exact hu.up z q hq
  · have g := hs.graph
    have e : h.copyOffset p index = m.base.copyOffset p index := by
      cases index <;> simp only [Heap.copyOffset, g]
    refine ⟨lk h hs.toLike, ?_, ?_, ?_, ?_⟩
    · simp only [Heap.linkPointers, setBase, hu.names p hp, if_pos hf, Fam.fill, Fam.gap, hs.iop]
    · simp only [Heap.linkPointers, setBase, hu.names p hp, if_pos hf, Fam.fill, Fam.gap, hs.iop, hs.dicts, g, e]
    · simp only [Heap.linkPointers, setBase, hu.names p hp, if_pos hf, Fam.fill, Fam.gap, hs.nextDict]
    · intro d
      simp only [Heap.linkPointers]
      set ds := upd h.dicts (h.iop p).1 ((h.iop p).2.shiftRight (h.dicts (h.iop p).1)
        (h.toGraph.sizeSum ((h.kids p).take (Heap.insertPos (h.kids p) index))) (h.size x)) with hds
      have c1 : ∀ d, Without .fixed (ds d) := by
        intro d
        rw [hds]
        by_cases hd : d = (h.iop p).1
        · subst hd; rw [upd_same]; exact (hs.clean _).shiftRight _ _ _
        · rw [upd_ne _ _ hd]; exact hs.clean d
      by_cases hd : d = (h.iop p).1
      · subst hd; rw [upd_same]; exact (c1 _).update _ ((c1 _).items _) _
      · rw [upd_ne _ _ hd]; exact c1 d

/-- The first part of `_disconnect_parent`. -/
def _root_.Paramz.Hier.Heap.cutOff (h : Heap T) (x : Id) : Heap T :=
  { h with
    dicts := upd (upd h.dicts (h.iop x).1 ((h.iop x).2.clear (h.dicts (h.iop x).1))) h.nextDict
      ((h.iop x).2.copy (h.dicts (h.iop x).1))
    nextDict := h.nextDict + 1
    iop := upd h.iop x (h.nextDict, .base)
    parent := upd h.parent x none }

theorem disconnect_step (hu : Uni m ns) {x : Id} (hx : x < m.base.next) :
    ∃ m', m.disconnect x = (m', false) ∧ Step ns m m' (fun h => h.disconnect x) := by
  simp only [disconnect]
  rw [foldl_setFam (fun F => F.detach x) _ _ (by rw [hu.names x hx]; exact hu.nodup), hu.names x hx]
  set m1 : Multi T N := ⟨m.base.cutOff x, m.names, fun g => if g ∈ ns then (m.fam g).detach x else m.fam g⟩ with hm1
  have s1 : Step ns m m1 (fun h => h.cutOff x) := by
    have lk : ∀ h, Like m.base h → Like (m.base.cutOff x) (h.cutOff x) := by
      intro h hl
      refine ⟨?_, hl.inInit, hl.inited, hl.visited⟩
      simp only [Heap.cutOff, hl.graph]
    refine ⟨rfl, rfl, ⟨hu.nodup, hu.names, hu.closed, fun z q hq => ?_⟩, lk, fun f hf h hs => ?_⟩
    · have hq : upd m.base.parent x none z = some q := hq
      show q < m.base.next
      by_cases hz : z = x
      · subst hz; rw [upd_same] at hq; cases hq
      · rw [upd_ne _ _ hz] at hq; exact hu.up z q hq
    refine ⟨lk h hs.toLike, ?_, ?_, ?_, ?_⟩
    · simp only [hm1, Heap.cutOff, if_pos hf, Fam.detach, hs.iop, hs.nextDict]
    · simp only [hm1, Heap.cutOff, if_pos hf, Fam.detach, hs.iop, hs.nextDict, hs.dicts]
    · simp only [hm1, Heap.cutOff, if_pos hf, Fam.detach, hs.nextDict]
    · intro d
      simp only [Heap.cutOff]
      by_cases hd : d = h.nextDict
      · subst hd; rw [upd_same]; exact (hs.clean _).copy _
      · rw [upd_ne _ _ hd]
        by_cases hd : d = (h.iop x).1
        · subst hd; rw [upd_same]; exact (hs.clean _).clear _
        · rw [upd_ne _ _ hd]; exact hs.clean d
  have s2 := connectFixes_step s1.uni x
  obtain ⟨m3, e3, s3⟩ := notify_step s2.uni (x := x) (by rw [s2.next, s1.next]; exact hx)
  exact ⟨m3, e3, (s1.trans s2).trans s3⟩

/-- `shift_left` on the dictionary of an object. -/
def _root_.Paramz.Hier.Heap.closeGap (h : Heap T) (q : Id) (start n : Nat) : Heap T :=
  { h with dicts := upd h.dicts (h.iop q).1 ((h.iop q).2.shiftLeft (h.dicts (h.iop q).1) start n) }

/-- `parent.size -= n` if there is a parent. -/
def _root_.Paramz.Hier.Heap.shrink (h : Heap T) (q : Id) (n : Nat) : Heap T :=
  match h.parent q with
  | none => h
  | some p => h.subSizes p n

/-- The rest of `unlink_parameter` after `_disconnect_parent`. -/
def _root_.Paramz.Hier.Heap.unlinkRest (h : Heap T) (q : Id) (start n : Nat) : Heap T :=
  let h6 := (((h.closeGap q start n).connect q).notifyParentChange q).shrink q n
  let r := h6.toGraph.highest q
  ((h6.connect r).connectFixes r).notifyParentChange r

theorem shrink_step (hu : Uni m ns) (q : Id) (n : Nat) :
    Step ns m (m.setBase (m.base.shrink q n)) (fun h => h.shrink q n) := by
  cases hp : m.base.parent q with
  | none =>
    have e : m.base.shrink q n = m.base := by simp only [Heap.shrink, hp]
    rw [e]
    refine (Step.refl hu).congr (fun h hl => ?_)
    simp only [Heap.shrink]
    rw [show h.parent = m.base.parent by rw [hl.graph], hp]; rfl
  | some p =>
    have e : m.base.shrink q n = m.base.subSizes p n := by simp only [Heap.shrink, hp]
    rw [e]
    refine (subSizes_step hu p n).congr (fun h hl => ?_)
    simp only [Heap.shrink]
    rw [show h.parent = m.base.parent by rw [hl.graph], hp]

theorem unlinkRest_step (hu : Uni m ns) {q : Id} (hq : q < m.base.next) (start n : Nat) :
    ∃ m', m.unlinkRest q start n = (m', false) ∧ Step ns m m' (fun h => h.unlinkRest q start n) := by
  simp only [unlinkRest]
  rw [foldl_setFam (fun F => F.close q start n) _ _ (by rw [hu.names q hq]; exact hu.nodup), hu.names q hq]
  set m1 : Multi T N := ⟨m.base.closeGap q start n, m.names,
    fun g => if g ∈ ns then (m.fam g).close q start n else m.fam g⟩ with hm1
  have s1 : Step ns m m1 (fun h => h.closeGap q start n) := by
    refine ⟨rfl, rfl, ⟨hu.nodup, hu.names, hu.closed, hu.up⟩, fun h hl => ⟨hl.graph, hl.inInit, hl.inited, hl.visited⟩,
      fun f hf h hs => ?_⟩
    refine ⟨⟨hs.graph, hs.inInit, hs.inited, hs.visited⟩, ?_, ?_, ?_, ?_⟩
    · simp only [hm1, Heap.closeGap, if_pos hf, Fam.close, hs.iop]
    · simp only [hm1, Heap.closeGap, if_pos hf, Fam.close, hs.iop, hs.dicts]
    · simp only [hm1, Heap.closeGap, if_pos hf, Fam.close, hs.nextDict]
    · intro d
      simp only [Heap.closeGap]
      by_cases hd : d = (h.iop q).1
      · subst hd; rw [upd_same]; exact (hs.clean _).shiftLeft _ _ _
      · rw [upd_ne _ _ hd]; exact hs.clean d
  have s2 := connect_step s1.uni (x := q) hq
  obtain ⟨m3, e3, s3⟩ := notify_step s2.uni (x := q) (by rw [s2.next, s1.next]; exact hq)
  have s4 := shrink_step s3.uni q n
  set r := (m3.base.shrink q n).toGraph.highest q with hrr
  have n4 : (m3.setBase (m3.base.shrink q n)).base.next = m.base.next := (((s1.trans s2).trans s3).trans s4).next
  have hr : r < (m3.setBase (m3.base.shrink q n)).base.next :=
    s4.uni.highest (by rw [n4]; exact hq)
  have hr' : r < m.base.next := by rw [← n4]; exact hr
  have s5 := connect_step s4.uni hr
  have s6 := connectFixes_step s5.uni r
  have n6 := ((((s1.trans s2).trans s3).trans s4).trans s5).trans s6
  obtain ⟨m7, e7, s7⟩ := notify_step s6.uni (x := r) (by rw [n6.next]; exact hr')
  refine ⟨m7, ?_, (n6.trans s7).congr (fun h hl => ?_)⟩
  · show (if (notifyParentChange (m1.setBase (m1.base.connect q)) q).2 then
      notifyParentChange (m1.setBase (m1.base.connect q)) q
      else (notifyParentChange (m1.setBase (m1.base.connect q)) q).1.unlinkEnd q n) = _
    rw [e3]
    exact e7
  simp only [Heap.unlinkRest]
  have key : ((((h.closeGap q start n).connect q).notifyParentChange q).shrink q n).toGraph =
      (m3.base.shrink q n).toGraph := by
    exact ((((s1.trans s2).trans s3).trans s4).like h hl).graph
  rw [key]

/-- The first part of `unlink_parameter`. -/
def _root_.Paramz.Hier.Heap.dropChild (h : Heap T) (q x : Id) : Heap T :=
  { h with
    size := upd h.size q (h.size q - h.size x)
    kids := upd h.kids q ((h.kids q).eraseIdx (h.pidx x)) }

theorem unlinkChild_step (hu : Uni m ns) {q x : Id} (hq : q < m.base.next) (hx : x < m.base.next) :
    ∃ m', m.unlinkChild q x = (m', false) ∧ Step ns m m' (fun h => h.unlinkChild q x) := by
  have s1 : Step ns m (m.setBase (m.base.dropChild q x)) (fun h => h.dropChild q x) := by
    refine Step.setBase (op := fun h => h.dropChild q x) hu rfl (fun z c hc => ?_) hu.up (fun h hl => ?_)
      (fun _ _ => ⟨rfl, rfl, rfl⟩)
    · have hc : c ∈ upd m.base.kids q ((m.base.kids q).eraseIdx (m.base.pidx x)) z := hc
      show c < m.base.next
      by_cases hz : z = q
      · subst hz; rw [upd_same] at hc
        exact hu.closed z c ((List.eraseIdx_sublist ..).mem hc)
      · rw [upd_ne _ _ hz] at hc; exact hu.closed z c hc
    · refine ⟨?_, hl.inInit, hl.inited, hl.visited⟩
      simp only [Heap.dropChild, hl.graph]
  have s2 := connect_step s1.uni (x := q) hq
  obtain ⟨m3, e3, s3⟩ := disconnect_step s2.uni (x := x) hx
  have n3 := ((s1.trans s2).trans s3).next
  obtain ⟨m4, e4, s4⟩ := unlinkRest_step s3.uni (q := q) (by rw [n3]; exact hq)
    (m.base.toGraph.sizeSum ((m.base.kids q).take (m.base.pidx x))) (m.base.size x)
  refine ⟨m4, ?_, (((s1.trans s2).trans s3).trans s4).congr (fun h hl => ?_)⟩
  · show (if (disconnect ((m.setBase (m.base.dropChild q x)).setBase ((m.base.dropChild q x).connect q)) x).2 then
      disconnect ((m.setBase (m.base.dropChild q x)).setBase ((m.base.dropChild q x).connect q)) x
      else (disconnect ((m.setBase (m.base.dropChild q x)).setBase ((m.base.dropChild q x).connect q)) x).1.unlinkRest
        q (m.base.toGraph.sizeSum ((m.base.kids q).take (m.base.pidx x))) (m.base.size x)) = _
    have e3' : disconnect ((m.setBase (m.base.dropChild q x)).setBase ((m.base.dropChild q x).connect q)) x =
      (m3, false) := e3
    rw [e3']
    exact e4
  · rw [← hl.graph]
    rfl

theorem linkFinish_step (hu : Uni m ns) {r : Id} (hr : r < m.base.next) :
    ∃ m', m.linkFinish r = (m', none) ∧
      Step ns m m' (fun h => ((h.connect r).notifyParentChange r).connectFixes r) := by
  have s1 := connect_step hu hr
  obtain ⟨m2, e2, s2⟩ := notify_step s1.uni (x := r) hr
  have s3 := connectFixes_step s2.uni r
  refine ⟨_, ?_, (s1.trans s2).trans s3⟩
  simp only [linkFinish, e2, Bool.false_eq_true, if_false]

/-- The second part of `link_parameter`. -/
def _root_.Paramz.Hier.Heap.linkTell (h : Heap T) (p : Id) : Heap T × Option Err :=
  let h3 := h.notifyParentChange p
  if h3.inInit p then (h3, none)
  else
    let r := h3.toGraph.highest p
    match h3.inited r with
    | none => (h3, some .attributeError)
    | some false => (h3, none)
    | some true => (((h3.connect r).notifyParentChange r).connectFixes r, none)

theorem linkTell_step (hu : Uni m ns) {p : Id} (hp : p < m.base.next) :
    ∃ m', m.linkTell p = (m', (m.base.linkTell p).2.map .other) ∧ Step ns m m' (fun h => (h.linkTell p).1) := by
  obtain ⟨m3, e3, s3⟩ := notify_step hu hp
  have b3 : m3.base = m.base.notifyParentChange p := s3.base
  have hp3 : p < m3.base.next := by rw [s3.next]; exact hp
  simp only [linkTell, e3, Bool.false_eq_true, if_false]
  have hlk := s3.like
  cases hi : m3.base.inInit p with
  | true =>
    simp only [if_true]
    refine ⟨m3, ?_, s3.congr (fun h hl => ?_)⟩
    · simp only [Heap.linkTell, ← b3, hi, if_true, Option.map_none]
    · simp only [Heap.linkTell, (hlk h hl).inInit, hi, if_true]
  | false =>
    simp only [Bool.false_eq_true, if_false]
    cases hj : m3.base.inited (m3.base.toGraph.highest p) with
    | none =>
      refine ⟨m3, ?_, s3.congr (fun h hl => ?_)⟩
      · simp only [Heap.linkTell, ← b3, hi, hj, Bool.false_eq_true, if_false, Option.map_some]
      · simp only [Heap.linkTell, (hlk h hl).inInit, (hlk h hl).inited, (hlk h hl).graph, hi, hj, Bool.false_eq_true,
          if_false]
    | some b =>
      cases b with
      | false =>
        refine ⟨m3, ?_, s3.congr (fun h hl => ?_)⟩
        · simp only [Heap.linkTell, ← b3, hi, hj, Bool.false_eq_true, if_false, Option.map_none]
        · simp only [Heap.linkTell, (hlk h hl).inInit, (hlk h hl).inited, (hlk h hl).graph, hi, hj,
            Bool.false_eq_true, if_false]
      | true =>
        obtain ⟨m4, e4, s4⟩ := linkFinish_step s3.uni (s3.uni.highest hp3)
        refine ⟨m4, ?_, (s3.trans s4).congr (fun h hl => ?_)⟩
        · simp only [Heap.linkTell, ← b3, hi, hj, e4, Bool.false_eq_true, if_false, Option.map_none]
        · simp only [Heap.linkTell, (hlk h hl).inInit, (hlk h hl).inited, (hlk h hl).graph, hi, hj,
            Bool.false_eq_true, if_false]

theorem linkRoot_step (hu : Uni m ns) {p x : Id} (hp : p < m.base.next) (hx : x < m.base.next)
    (index : Option Int) :
    ∃ m', m.linkRoot p x index = (m', (m.base.linkRoot p x index).2.map .other) ∧
      Step ns m m' (fun h => (h.linkRoot p x index).1) := by
  obtain ⟨m1, e1, s1⟩ := linkPointers_step hu hp hx index
  have s2 := addSizes_step s1.uni p (m.base.size x)
  have s12 := s1.trans s2
  simp only [linkRoot, e1, Bool.false_eq_true, if_false]
  by_cases hpos : Heap.storedIndex (m.base.kids p) index ≠ Heap.insertPos (m.base.kids p) index
  · rw [if_pos hpos]
    refine ⟨_, ?_, s12.congr (fun h hl => ?_)⟩
    · simp only [Heap.linkRoot, if_pos hpos, Option.map_some]
    · simp only [Heap.linkRoot]
      rw [show h.kids = m.base.kids by rw [hl.graph], if_pos hpos, show h.size = m.base.size by rw [hl.graph]]
  · rw [if_neg hpos]
    obtain ⟨m3, e3, s3⟩ := linkTell_step s2.uni (p := p) (by rw [s12.next]; exact hp)
    refine ⟨m3, ?_, (s12.trans s3).congr (fun h hl => ?_)⟩
    · rw [e3]
      simp only [Heap.linkRoot, if_neg hpos]
      rw [s12.base]
      rfl
    · simp only [Heap.linkRoot]
      rw [show h.kids = m.base.kids by rw [hl.graph], if_neg hpos, show h.size = m.base.size by rw [hl.graph]]
      rfl

theorem visited_step (hu : Uni m ns) (v : Id → Bool) :
    Step ns m (m.setBase { m.base with visited := v }) (fun h => { h with visited := v }) :=
  Step.setBase (op := fun h => { h with visited := v }) hu rfl hu.closed hu.up
    (fun _ hl => ⟨hl.graph, hl.inInit, hl.inited, rfl⟩) (fun _ _ => ⟨rfl, rfl, rfl⟩)

theorem linkNew_step (hu : Uni m ns) {p x : Id} (hp : p < m.base.next) (hx : x < m.base.next)
    (index : Option Int) :
    ∃ m', m.linkNew p x index = (m', (m.base.linkNew p x index).2.map .other) ∧
      Step ns m m' (fun h => (h.linkNew p x index).1) := by
  cases hq : m.base.parent x with
  | none =>
    obtain ⟨m1, e1, s1⟩ := linkRoot_step hu hp hx index
    refine ⟨m1, ?_, s1.congr (fun h hl => ?_)⟩
    · simp only [linkNew, Heap.linkNew, hq, e1]
    · simp only [Heap.linkNew]
      rw [show h.parent = m.base.parent by rw [hl.graph], hq]
  | some q =>
    set s := m.base.toGraph.traverseParents (fun _ y => decide (y = p)) ⟨m.base.visited, [], false⟩ x with hs
    have s1 := visited_step hu s.marks
    have es : ∀ h, Like m.base h →
        h.toGraph.traverseParents (fun _ y => decide (y = p)) ⟨h.visited, [], false⟩ x = s := by
      intro h hl; rw [hs, hl.graph, hl.visited]
    cases hra : s.raised with
    | true =>
      refine ⟨_, ?_, s1.congr (fun h hl => ?_)⟩
      · simp only [linkNew, Heap.linkNew, hq, ← hs, hra, if_true, Option.map_some]
      · simp only [Heap.linkNew]
        rw [show h.parent = m.base.parent by rw [hl.graph], hq]
        simp only [es h hl, hra, if_true]
    | false =>
      obtain ⟨m2, e2, s2⟩ := unlinkChild_step s1.uni (q := q) (x := x) (hu.up x q hq) hx
      have n2 := (s1.trans s2).next
      obtain ⟨m3, e3, s3⟩ := linkRoot_step s2.uni (p := p) (x := x) (by rw [n2]; exact hp) (by rw [n2]; exact hx) index
      refine ⟨m3, ?_, ((s1.trans s2).trans s3).congr (fun h hl => ?_)⟩
      · simp only [linkNew, Heap.linkNew, hq, ← hs, hra, Bool.false_eq_true, if_false, e2, e3]
        rw [(s1.trans s2).base]
      · simp only [Heap.linkNew]
        rw [show h.parent = m.base.parent by rw [hl.graph], hq]
        simp only [es h hl, hra, Bool.false_eq_true, if_false]

theorem link_step (hu : Uni m ns) {p x : Id} (hp : p < m.base.next) (hx : x < m.base.next)
    (index : Option Int) :
    ∃ m', m.link p x index = (m', (m.base.link p x index).2.map .other) ∧
      Step ns m m' (fun h => (h.link p x index).1) := by
  have el : ∀ h, Like m.base h → h.leaf = m.base.leaf ∧ h.kids = m.base.kids :=
    fun h hl => ⟨by rw [hl.graph], by rw [hl.graph]⟩
  cases hlf : m.base.leaf p with
  | true =>
    refine ⟨m, ?_, (Step.refl hu).congr (fun h hl => ?_)⟩
    · simp only [link, Heap.link, hlf, if_true, Option.map_some]
    · simp only [Heap.link, (el h hl).1, hlf, if_true, id]
  | false =>
    by_cases hk : x ∈ m.base.kids p
    · cases index with
      | none =>
        refine ⟨m, ?_, (Step.refl hu).congr (fun h hl => ?_)⟩
        · simp only [link, Heap.link, hlf, hk, if_true, Bool.false_eq_true, if_false, Option.map_some]
        · simp only [Heap.link, (el h hl).1, (el h hl).2, hlf, hk, if_true, Bool.false_eq_true, if_false, id]
      | some i =>
        obtain ⟨m1, e1, s1⟩ := unlinkChild_step hu hp hx
        obtain ⟨m2, e2, s2⟩ := linkNew_step s1.uni (p := p) (x := x) (by rw [s1.next]; exact hp)
          (by rw [s1.next]; exact hx) (some i)
        refine ⟨m2, ?_, (s1.trans s2).congr (fun h hl => ?_)⟩
        · simp only [link, Heap.link, hlf, hk, if_true, Bool.false_eq_true, if_false, e1, e2]
          rw [s1.base]
        · simp only [Heap.link, (el h hl).1, (el h hl).2, hlf, hk, if_true, Bool.false_eq_true, if_false]
    · obtain ⟨m2, e2, s2⟩ := linkNew_step hu hp hx index
      refine ⟨m2, ?_, s2.congr (fun h hl => ?_)⟩
      · simp only [link, Heap.link, hlf, hk, Bool.false_eq_true, if_false, e2]
      · simp only [Heap.link, (el h hl).1, (el h hl).2, hlf, hk, Bool.false_eq_true, if_false]

theorem unlink_step (hu : Uni m ns) {q x : Id} (hq : x ∈ m.base.kids q → q < m.base.next) :
    ∃ m', m.unlink q x = (m', (m.base.unlink q x).2.map .other) ∧ Step ns m m' (fun h => (h.unlink q x).1) := by
  have el : ∀ h, Like m.base h → h.leaf = m.base.leaf ∧ h.kids = m.base.kids :=
    fun h hl => ⟨by rw [hl.graph], by rw [hl.graph]⟩
  cases hlf : m.base.leaf q with
  | true =>
    refine ⟨m, ?_, (Step.refl hu).congr (fun h hl => ?_)⟩
    · simp only [unlink, Heap.unlink, hlf, if_true, Option.map_some]
    · simp only [Heap.unlink, (el h hl).1, hlf, if_true, id]
  | false =>
    by_cases hk : x ∈ m.base.kids q
    · obtain ⟨m1, e1, s1⟩ := unlinkChild_step hu (hq hk) (hu.closed q x hk)
      refine ⟨m1, ?_, s1.congr (fun h hl => ?_)⟩
      · simp only [unlink, Heap.unlink, hlf, hk, if_true, Bool.false_eq_true, if_false, e1, Option.map_none]
      · simp only [Heap.unlink, (el h hl).1, (el h hl).2, hlf, hk, if_true, Bool.false_eq_true, if_false]
    · refine ⟨m, ?_, (Step.refl hu).congr (fun h hl => ?_)⟩
      · simp only [unlink, Heap.unlink, hlf, hk, Bool.false_eq_true, if_false, Option.map_some]
      · simp only [Heap.unlink, (el h hl).1, (el h hl).2, hlf, hk, Bool.false_eq_true, if_false, id]

theorem initialize_step (hu : Uni m ns) {x : Id} (hx : x < m.base.next) :
    ∃ m', m.initializeParameter x = (m', none) ∧ Step ns m m' (fun h => h.initializeParameter x) := by
  have hr := hu.highest hx
  obtain ⟨m1, e1, s1⟩ := notify_step hu hr
  have s2 := connect_step s1.uni (x := m.base.toGraph.highest x) (by rw [s1.next]; exact hr)
  have s3 := connectFixes_step s2.uni (m.base.toGraph.highest x)
  refine ⟨_, ?_, ((s1.trans s2).trans s3).congr (fun h hl => ?_)⟩
  · simp only [initializeParameter, e1, Bool.false_eq_true, if_false]; rfl
  · simp only [Heap.initializeParameter, hl.graph]

theorem finishInit_step (hu : Uni m ns) {x : Id} (hx : x < m.base.next) (init : Bool) :
    ∃ m', m.finishInit x init = (m', none) ∧ Step ns m m' (fun h => h.finishInit x init) := by
  have s1 : Step ns m (m.setBase
      { m.base with inInit := upd m.base.inInit x false, inited := upd m.base.inited x (some false) })
      (fun h => { h with inInit := upd h.inInit x false, inited := upd h.inited x (some false) }) :=
    Step.setBase (op := fun h => { h with inInit := upd h.inInit x false, inited := upd h.inited x (some false) })
      hu rfl hu.closed hu.up
      (fun h hl => ⟨hl.graph, by simp only [hl.inInit], by simp only [hl.inited], hl.visited⟩)
      (fun _ _ => ⟨rfl, rfl, rfl⟩)
  cases init with
  | false => exact ⟨_, rfl, s1⟩
  | true =>
    obtain ⟨m2, e2, s2⟩ := initialize_step s1.uni (x := x) hx
    exact ⟨m2, e2, s1.trans s2⟩

/-! ### Constraining, setting, new objects -/

theorem Sim.rebase {h h' : Heap T} {f : N} (hs : Sim m h f) (s : Heap.Same m.base h') : Sim (m.setBase h') h f :=
  ⟨⟨by rw [hs.graph]; exact s.graph.symm, by rw [hs.inInit]; exact s.inInit.symm,
    by rw [hs.inited]; exact s.inited.symm, by rw [hs.visited]; exact s.visited.symm⟩,
    hs.iop, hs.dicts, hs.nextDict, hs.clean⟩

theorem Uni.rebase (hu : Uni m ns) {h' : Heap T} (s : Heap.Same m.base h') : Uni (m.setBase h') ns := by
  refine ⟨hu.nodup, ?_, ?_, ?_⟩
  · show ∀ y, y < h'.next → _; rw [s.graph]; exact hu.names
  · show ∀ x, ∀ c ∈ h'.kids x, c < h'.next; rw [s.graph]; exact hu.closed
  · show ∀ x p, h'.parent x = some p → p < h'.next; rw [s.graph]; exact hu.up

theorem setFam_setFam (m : Multi T N) (f : N) (F G : Fam T) : (m.setFam f F).setFam f G = m.setFam f G := by
  simp only [setFam, Multi.mk.injEq, true_and]
  funext g
  split <;> rfl

theorem setFam_same (m : Multi T N) (f : N) (F : Fam T) : (m.setFam f F).fam f = F := by simp [setFam]

theorem setFam_self (m : Multi T N) (f : N) : m.setFam f (m.fam f) = m := by
  cases m
  simp only [setFam, Multi.mk.injEq, true_and]
  funext g
  split
  · rename_i h; rw [h]
  · rfl

theorem Sim.other {h : Heap T} {f g : N} (hs : Sim m h g) (hg : g ≠ f) (F : Fam T) : Sim (m.setFam f F) h g := by
  have e : (m.setFam f F).fam g = m.fam g := by simp [setFam, hg]
  exact ⟨⟨hs.graph, hs.inInit, hs.inited, hs.visited⟩, by rw [e]; exact hs.iop, by rw [e]; exact hs.dicts,
    by rw [e]; exact hs.nextDict, hs.clean⟩

theorem index_like {b h : Heap T} (hl : Like b h) (x : Heap.Target) : x.index h = x.index b := by
  unfold Heap.Target.index
  rw [hl.graph]

theorem Sim.takeOff {h : Heap T} {f : N} {F : Fam T} (hs : Sim (m.setFam f F) h f) (x : Heap.Target) {t : Con T}
    (ht : t ≠ .fixed) :
    Sim (m.setFam f (F.takeOff x.obj (x.index m.base) t)) (h.unconstrainOne x t) f := by
  have e1 := hs.iop; have e2 := hs.dicts; have e3 := hs.nextDict
  rw [setFam_same] at e1 e2 e3
  have ei : x.index h = x.index m.base := index_like (b := m.base) ⟨hs.graph, hs.inInit, hs.inited, hs.visited⟩ x
  simp only [Heap.unconstrainOne, if_neg ht]
  refine ⟨⟨hs.graph, hs.inInit, hs.inited, hs.visited⟩, ?_, ?_, ?_, fun d => ?_⟩
  · rw [setFam_same]; exact e1
  · rw [setFam_same]; simp only [Fam.takeOff, e1, e2, ei]
  · rw [setFam_same]; exact e3
  · simp only
    by_cases hd : d = (h.iop x.obj).1
    · subst hd; rw [upd_same]; exact (hs.clean _).removeV _ _
    · rw [upd_ne _ _ hd]; exact hs.clean d

theorem Sim.takeOffs {f : N} (x : Heap.Target) : ∀ (ts : List (Con T)) (h : Heap T) (F : Fam T),
    (∀ t ∈ ts, t ≠ .fixed) → Sim (m.setFam f F) h f →
    Sim (m.setFam f (ts.foldl (fun F t => F.takeOff x.obj (x.index m.base) t) F))
      (ts.foldl (fun h t => h.unconstrainOne x t) h) f
  | [], _, _, _, hs => hs
  | t :: ts, _, _, ht, hs =>
    Sim.takeOffs x ts _ _ (fun t h => ht t (by simp [h])) (hs.takeOff x (ht t (by simp)))

theorem Sim.unset {h : Heap T} {f : N} (hs : Sim m h f) (x : Heap.Target) {ts : List (Con T)}
    (ht : ∀ t ∈ ts, t ≠ .fixed) :
    Sim (m.setFam f ((m.fam f).unset x.obj (x.index m.base) ts)) (h.unconstrain x ts) f := by
  have h0 : Sim (m.setFam f (m.fam f)) h f := by rw [setFam_self]; exact hs
  have key := Sim.takeOffs x
    (if ts = [] then (h.iop x.obj).2.properties (h.dicts (h.iop x.obj).1) else ts) h (m.fam f) (by
      intro t htm
      split at htm
      · obtain ⟨e, he, rfl⟩ := List.mem_map.mp htm
        exact (hs.clean _).items _ e he
      · exact ht t htm) h0
  simp only [Fam.unset, Heap.unconstrain]
  rw [← hs.iop, ← hs.dicts]
  exact key

theorem Sim.put {h : Heap T} {f : N} {F : Fam T} (hs : Sim (m.setFam f F) h f) (x : Heap.Target) (t : T) :
    Sim (m.setFam f (F.put x.obj (x.index m.base) (.tr t))) (h.addCon x (.tr t)) f := by
  have e1 := hs.iop; have e2 := hs.dicts; have e3 := hs.nextDict
  rw [setFam_same] at e1 e2 e3
  have ei : x.index h = x.index m.base := index_like (b := m.base) ⟨hs.graph, hs.inInit, hs.inited, hs.visited⟩ x
  simp only [Heap.addCon]
  refine ⟨⟨hs.graph, hs.inInit, hs.inited, hs.visited⟩, ?_, ?_, ?_, fun d => ?_⟩
  · rw [setFam_same]; exact e1
  · rw [setFam_same]; simp only [Fam.put, e1, e2, ei]
  · rw [setFam_same]; exact e3
  · simp only
    by_cases hd : d = (h.iop x.obj).1
    · subst hd; rw [upd_same]; exact (hs.clean _).add (by simp) _ _
    · rw [upd_ne _ _ hd]; exact hs.clean d

theorem Sim.set {h : Heap T} {f : N} (hs : Sim m h f) (x : Heap.Target) (t : T) :
    Sim (m.setFam f (((m.fam f).unset x.obj (x.index m.base) []).put x.obj (x.index m.base) (.tr t)))
      (h.constrain x (.tr t)) f :=
  (hs.unset x (ts := []) (by simp)).put x t

theorem addFamilies_eq (x : Id) : ∀ (fs : List N) (m : Multi T N), fs.Nodup → (∀ f ∈ fs, f ∉ m.names x) →
    m.addFamilies x fs = ⟨m.base, upd m.names x (m.names x ++ fs),
      fun g => if g ∈ fs then (m.fam g).new x else m.fam g⟩
  | [], m, _, _ => by simp [addFamilies, upd_self]
  | f :: fs, m, hd, hs => by
    have hf := (List.nodup_cons.mp hd).1
    rw [addFamilies, if_neg (hs f (by simp)), addFamilies_eq x fs _ (List.nodup_cons.mp hd).2]
    · simp only [setFam, Multi.mk.injEq, true_and]
      constructor
      · rw [upd_same]
        funext y
        by_cases hy : y = x
        · subst hy; rw [upd_same, upd_same]; simp
        · rw [upd_ne _ _ hy, upd_ne _ _ hy, upd_ne _ _ hy]
      · funext g
        by_cases hg : g = f
        · subst hg; simp [hf]
        · simp [hg]
    · intro g hg
      show g ∉ upd m.names x (m.names x ++ [f]) x
      rw [upd_same]
      have h1 := hs g (by simp [hg])
      have h2 : g ≠ f := fun h => hf (h ▸ hg)
      simp [h1, h2]

/-- A new object. -/
theorem new_step (hu : Uni m ns) (leaf : Bool) (size : Nat) (ini : Bool) :
    Uni (addFamilies ⟨m.base.newObj leaf size ini, upd m.names m.base.next [], m.fam⟩ m.base.next ns) ns ∧
    (addFamilies ⟨m.base.newObj leaf size ini, upd m.names m.base.next [], m.fam⟩ m.base.next ns).base =
      m.base.newObj leaf size ini ∧
    ∀ f ∈ ns, ∀ h, Sim m h f →
      Sim (addFamilies ⟨m.base.newObj leaf size ini, upd m.names m.base.next [], m.fam⟩ m.base.next ns)
        (h.newObj leaf size ini) f := by
  rw [addFamilies_eq m.base.next ns _ hu.nodup (by simp [upd_same])]
  refine ⟨⟨hu.nodup, fun y hy => ?_, fun x c hc => ?_, fun x p hp => ?_⟩, rfl, fun f hf h hs => ?_⟩
  · have hy : y < m.base.next + 1 := hy
    simp only [upd_same, List.nil_append]
    by_cases e : y = m.base.next
    · subst e; rw [upd_same]
    · rw [upd_ne _ _ e, upd_ne _ _ e]
      exact hu.names y (Nat.lt_of_le_of_ne (Nat.le_of_lt_succ hy) e)
  · have hc : c ∈ upd m.base.kids m.base.next [] x := hc
    show c < m.base.next + 1
    by_cases e : x = m.base.next
    · subst e; rw [upd_same] at hc; cases hc
    · rw [upd_ne _ _ e] at hc; exact Nat.lt_succ_of_lt (hu.closed x c hc)
  · have hp : upd m.base.parent m.base.next none x = some p := hp
    show p < m.base.next + 1
    by_cases e : x = m.base.next
    · subst e; rw [upd_same] at hp; cases hp
    · rw [upd_ne _ _ e] at hp; exact Nat.lt_succ_of_lt (hu.up x p hp)
  · have g := hs.graph
    refine ⟨⟨?_, ?_, ?_, ?_⟩, ?_, ?_, ?_, fun d => ?_⟩
    · simp only [Heap.newObj, g]
    · simp only [Heap.newObj, g, hs.inInit]
    · simp only [Heap.newObj, g, hs.inited]
    · simp only [Heap.newObj, g, hs.visited]
    · simp only [Heap.newObj, g, if_pos hf, Fam.new, hs.iop, hs.nextDict]
    · simp only [Heap.newObj, if_pos hf, Fam.new, hs.dicts, hs.nextDict]
    · simp only [Heap.newObj, if_pos hf, Fam.new, hs.nextDict]
    · simp only [Heap.newObj]
      by_cases hd : d = h.nextDict
      · subst hd; rw [upd_same]; intro e he; cases he
      · rw [upd_ne _ _ hd]; exact hs.clean d

end Multi

end Paramz.Hier
