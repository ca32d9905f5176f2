import Verif.Opt.Watch

/-!
# Watching an optimisation (C92)
-/

set_option linter.unusedSectionVars false

namespace Paramz.Opt

open Hier (Con Id)

variable {V T W : Type} [DecidableEq T]

/-! ### Lemmas -/

theorem play_fixes (o : Ops V T) (g : List V → List V) (F : List V → W) (junk : List V) (w w' : Nat → Bool)
    (p : Plan V W) : ∀ (n : Nat) {s s' : State V T} (own : List V), Ready s → Ready s' → Alias s s' →
      s.hasFixes = true → State.play o g F junk w' p n s' own = State.play o g F junk w p n s own := by
  induction p with
  | done x =>
    intro n s s' own r r' h hf
    simp only [State.play]
    rw [held_fixes hf, held_fixes (h.hasFixes.trans hf), (h.setOpt o g _).vals]
  | put l k ih =>
    intro n s s' own r r' h hf
    simp only [State.play]
    rw [if_pos hf, if_pos (h.hasFixes.trans hf)]
    refine ih n _ (scribble_ready r l) (scribble_ready r' l) ((Alias.scribble l).symm.trans (h.trans (Alias.scribble l))) ?_
    rw [(Alias.scribble l).hasFixes]; exact hf
  | ask c k ih =>
    intro n s s' own r r' h hf
    obtain ⟨h1, h2⟩ := eval_alias o g F junk (w n) (w' n) r r' h c
    have f1 : (s.eval o g F junk (w n) c).1.hasFixes = true := (eval_fixes o g F junk (w n) r c).trans hf
    simp only [State.play]
    rw [held_fixes f1, held_fixes (h1.hasFixes.trans f1), h2]
    exact congrArg (Outcome.after _) (ih _ (n + 1) own (eval_ready o g F junk _ r c) (eval_ready o g F junk _ r' c) h1 f1)

theorem play_blind (o : Ops V T) (g : List V → List V) (F : List V → W) (junk : List V) (w w' : Nat → Bool)
    {p : Plan V W} (hp : Blind p) : ∀ (n : Nat) {s s' : State V T} (own own' : List V), Ready s → Ready s' →
      Alias s s' → State.play o g F junk w' p n s' own' = State.play o g F junk w p n s own := by
  induction hp with
  | done x =>
    intro n s s' own own' r r' h
    simp only [State.play, Option.getD_some]
    rw [(h.setOpt o g _).vals]
  | ask hk hb ih =>
    intro n s s' own own' r r' h
    rename_i c k
    obtain ⟨h1, h2⟩ := eval_alias o g F junk (w n) (w' n) r r' h c
    simp only [State.play]
    rw [h2, hk _ ((s'.eval o g F junk (w' n) c).1.held own') ((s.eval o g F junk (w n) c).1.held own)]
    exact congrArg (Outcome.after _)
      (ih _ (n + 1) own own' (eval_ready o g F junk _ r c) (eval_ready o g F junk _ r' c) h1)

/-- The vector has an entry for every free element, and the entries of constrained elements survive `finv (f x)`. -/
def RoundTrips (o : Ops V T) (s : State V T) (p : List V) : Prop :=
  p.length = (free s).length ∧ ∀ (k i : Nat) (t : T) (x : V), (free s)[k]? = some i → i ∈ s.cons (.tr t) →
    p[k]? = some x → o.finv t (o.f t x) = x

theorem RoundTrips.akin {o : Ops V T} {s s' : State V T} (h : Akin s s') {p : List V} (hp : RoundTrips o s p) :
    RoundTrips o s' p := by
  refine ⟨by rw [h.free]; exact hp.1, fun k i t x hk ht hx => hp.2 k i t x ?_ ?_ hx⟩
  · rw [← h.free]; exact hk
  · rw [← h.cons]; exact ht

theorem akin_look (o : Ops V T) (junk : List V) (b : Bool) {s : State V T} (r : Ready s) :
    Akin s (s.look o junk b) := by
  unfold State.look
  split
  · exact akin_read o r junk
  · exact .refl r

theorem akin_eval (o : Ops V T) (g : List V → List V) (F : List V → W) (junk : List V) (b : Bool) {s : State V T}
    (r : Ready s) (c : Call V) : Akin s (s.eval o g F junk b c).1 := by
  have h1 := akin_setOpt o g r c.point
  have h2 := h1.trans (akin_look o junk b h1.ready)
  unfold State.eval
  dsimp only
  split
  · exact h2.trans (akin_optGrad o h2.ready)
  · exact h2

theorem akin_scribble {s : State V T} (r : Ready s) (l : List V) : Akin s (s.scribble l) :=
  ⟨(Alias.scribble l).heap, (Alias.scribble l).root, (Alias.scribble l).on, scribble_ready r l,
    fun _ _ => by rw [(Alias.scribble l).vals]⟩

/-- An evaluation where the optimiser stands leaves `x_init` as it is, watched or not. -/
theorem eval_keeps (o : Ops V T) (g : List V → List V) (F : List V → W) (junk : List V) (b : Bool) {s : State V T}
    (r : Ready s) (hf : s.hasFixes = false) {c : Call V} (hc : s.copy = some c.point)
    (hr : RoundTrips o s c.point) : (s.eval o g F junk b c).1.copy = some c.point := by
  cases b with
  | false => rw [eval_copy]; exact hc
  | true => rw [eval_copy_watched o g F junk r hf, set_then_read o g r hr.1 hr.2]

theorem play_inPlace (o : Ops V T) (g : List V → List V) (F : List V → W) (junk : List V) (w w' : Nat → Bool)
    {s0 : State V T} (hf : s0.hasFixes = false) {x : List V} {p : Plan V W} (hp : InPlace (RoundTrips o s0) x p) :
    ∀ (n : Nat) {s s' : State V T} (own own' : List V), Akin s0 s → Akin s0 s' → Alias s s' → s.copy = some x →
      s'.copy = some x → State.play o g F junk w' p n s' own' = State.play o g F junk w p n s own := by
  have fixes : ∀ {s : State V T}, Akin s0 s → s.hasFixes = false := fun h => by
    unfold State.hasFixes at hf ⊢; rw [h.cons]; exact hf
  induction hp with
  | done x =>
    intro n s s' own own' a a' h hc hc'
    simp only [State.play, Option.getD_none]
    rw [held_free (fixes a), held_free (fixes a'), hc, hc', (h.setOpt o g _).vals]
  | put hk ih =>
    intro n s s' own own' a a' h hc hc'
    rename_i x l k
    simp only [State.play]
    have e : ∀ {s : State V T}, s.hasFixes = false → (s.scribble l).copy = some l := fun h => by
      unfold State.scribble; rw [if_neg (by simp [h])]
    exact ih n _ _ (a.trans (akin_scribble a.ready l)) (a'.trans (akin_scribble a'.ready l))
      ((Alias.scribble l).symm.trans (h.trans (Alias.scribble l))) (e (fixes a)) (e (fixes a'))
  | ask hc hx hk ih =>
    intro n s s' own own' a a' h hs hs'
    rename_i x c k
    subst hc
    obtain ⟨h1, h2⟩ := eval_alias o g F junk (w n) (w' n) a.ready a'.ready h c
    have k1 := eval_keeps o g F junk (w n) a.ready (fixes a) hs (hx.akin a)
    have k2 := eval_keeps o g F junk (w' n) a'.ready (fixes a') hs' (hx.akin a')
    have b1 := a.trans (akin_eval o g F junk (w n) a.ready c)
    have b2 := a'.trans (akin_eval o g F junk (w' n) a'.ready c)
    simp only [State.play]
    rw [h2, held_free (fixes b1), held_free (fixes b2), k1, k2]
    exact congrArg (Outcome.after _) (ih _ (n + 1) own own' b1 b2 h1 k1 k2)

theorem akin_begin (g : List V → List V) {s : State V T} (r : Ready s) :
    Ready (s.begin g) ∧ (s.begin g).heap = s.heap ∧ (s.begin g).root = s.root := by
  unfold State.begin
  split
  · exact ⟨r, rfl, rfl⟩
  · exact ⟨exec_ready (o := ⟨fun _ v => v, fun _ v => v, fun _ v _ => v, fun _ v => v⟩) (e := .updateModel true) r trivial, by simp [State.updateModel], by simp [State.updateModel]⟩

theorem read_copy (o : Ops V T) (junk : List V) {s : State V T} (hf : s.hasFixes = false) :
    (s.readOpt o junk).1.copy = some (s.readOpt o junk).2 := by
  simp only [State.readOpt, hf]
  rfl

/-! ### C92 -/

/-- C92: with an element fixed, an optimisation takes the same course whether or not it is watched, whatever the
optimiser: the same points are evaluated with the same results, and `x_opt` and the values at the end are the same. -/
theorem watching_with_fixes (o : Ops V T) (g : List V → List V) (F : List V → W) (junk : List V) (w : Nat → Bool)
    (p : List V → Plan V W) {s : State V T} (r : Ready s) (hf : s.cons .fixed ≠ []) :
    s.optimise o g F junk w p = s.optimise o g F junk (fun _ => false) p := by
  unfold State.optimise
  split
  · rfl
  · obtain ⟨r1, h1, h2⟩ := akin_begin g r
    have a := akin_read o r1 junk
    refine congrArg some (play_fixes o g F junk _ w _ 0 _ a.ready a.ready (.refl _) ?_)
    unfold State.hasFixes
    rw [a.cons]
    unfold State.cons
    rw [h1, h2]
    exact decide_eq_true hf

/-- C92 (partial): an optimisation takes the same course whether or not it is watched, if the optimiser copies its
start and leaves it alone, or if it works in its start and evaluates only where it stands, at points that are read
back as they were set (C31). Missing: any other optimiser when nothing is fixed, see `watching_scg_fails`. -/
theorem watching_partial (o : Ops V T) (g : List V → List V) (F : List V → W) (junk : List V) (w : Nat → Bool)
    (p : List V → Plan V W) {s : State V T} (r : Ready s)
    (h : (∀ x, Blind (p x)) ∨ ∀ x, x.length = (free s).length → InPlace (RoundTrips o s) x (p x)) (hc : Coherent o s) :
    s.optimise o g F junk w p = s.optimise o g F junk (fun _ => false) p := by
  by_cases hf : s.cons .fixed = []
  · unfold State.optimise
    split
    · rfl
    · obtain ⟨r1, h1, h2⟩ := akin_begin g r
      have a := akin_read o r1 junk
      have hcons : ∀ c, (s.begin g).cons c = s.cons c := fun c => by unfold State.cons; rw [h1, h2]
      have hsize : (s.begin g).size = s.size := by unfold State.size; rw [h1, h2]
      have hfree : free (s.begin g) = free s := by unfold free; rw [hcons, hsize]
      have hc1 : Coherent o (s.begin g) := by
        unfold State.begin
        split
        · exact hc
        · exact coherent_of_stale (by simp [State.updateModel, notify_fresh])
      have hf1 : (s.begin g).hasFixes = false := by
        unfold State.hasFixes; rw [hcons]; exact decide_eq_false (fun h => h hf)
      refine congrArg some ?_
      rcases h with hb | hi
      · exact play_blind o g F junk _ w (hb _) 0 _ _ a.ready a.ready (.refl _)
      · have hl : ((s.begin g).readOpt o junk).2.length = (free s).length := by
          rw [(readOpt_lists r1 hc1 junk).1, ← free_length r1.toHeld, hfree]
        have hR : InPlace (RoundTrips o (s.begin g)) ((s.begin g).readOpt o junk).2 (p ((s.begin g).readOpt o junk).2) := by
          have e : RoundTrips o (s.begin g) = RoundTrips o s := by
            funext x; unfold RoundTrips; simp only [hfree, hcons]
          rw [e]; exact hi _ hl
        exact play_inPlace o g F junk _ w hf1 hR 0 _ _ a a (.refl _) (read_copy o junk hf1) (read_copy o junk hf1)
  · exact watching_with_fixes o g F junk w p r hf

/-! ### Examples and the counterexample -/

/-- A model with one parameter of one element and nothing constrained. -/
def bowl : State ℚ Nat where
  heap := Hier.Heap.run Hier.Heap.empty [.newNode, .newParam 1, .link 0 1 none, .finishInit 0 true]
  root := 0
  vals := [1]
  grad := [0]
  copy := none
  fresh := false
  on := true

theorem bowl_ready : Ready bowl where
  reach := Hier.Heap.Reach.run .empty _ (by decide +kernel)
  lt := by decide +kernel
  root := by decide +kernel
  node := by decide +kernel
  inInit := by decide +kernel
  inited := by decide +kernel
  vals := by decide +kernel

/-- Transformations over the rationals: `n` adds `n`. -/
def shiftOps : Ops ℚ Nat where
  f t x := x + t
  finv t v := v - t
  gradfactor _ _ d := d
  init _ v := v

/-- The objective `2 v²`. -/
def bowlF (v : List ℚ) : ℚ := (v.map fun x => 2 * x ^ 2).sum

/-- Its gradient. -/
def bowlG (v : List ℚ) : List ℚ := v.map (4 * ·)

/-- SCG with its default tolerances (scg.py:58-63); the square root is right where it is needed. -/
def bowlSettings : Settings ℚ where
  sqrt x := if x = 16 then 4 else x
  xtol := 1 / 10 ^ 6
  ftol := 1 / 10 ^ 6
  gtol := 1 / 10 ^ 5
  shared := true

/-- Not so for SCG when nothing is fixed: a model whose `parameters_changed` reads `optimizer_array` starts at 1,
where the objective `2 v²` is 2. Unwatched SCG finds the minimum at 0 in two iterations. Watched, it ends below -4, where
the objective is above 32. -/
theorem watching_scg_fails :
    (bowl.optimise shiftOps bowlG bowlF [] (fun _ => false) (scgPlan bowlSettings 2)).map (·.vals) = some [0] ∧
    (bowl.optimise shiftOps bowlG bowlF [] (fun _ => true) (scgPlan bowlSettings 2)).map (·.vals) = some [-(4 + 1 / 10 ^ 7)] ∧
    bowlF [1] = 2 ∧ bowlF [0] = 0 ∧ 32 < bowlF [-(4 + 1 / 10 ^ 7)] ∧ bowl.cons .fixed = [] := by
  refine ⟨?_, ?_, ?_, ?_, ?_, ?_⟩ <;> decide +kernel

/-- A step against the gradient. -/
def downhill (x d : List ℚ) : List ℚ := x.mapIdx fun i e => e - d.getD i 0 / 8

/-- Steps against the gradient, in place. -/
def descent : Nat → List ℚ → Plan ℚ ℚ
  | 0, _ => .done none
  | n + 1, x => .ask (.grads x) fun a => .put (downhill a.start a.shown.grads) (descent n (downhill a.start a.shown.grads))

theorem descent_inPlace {s : State ℚ Nat} : ∀ n x, x.length = (free s).length →
    InPlace (RoundTrips shiftOps s) x (descent n x)
  | 0, x, _ => .done x
  | n + 1, x, h => .ask rfl ⟨h, fun _ _ t y _ _ _ => by show y + t - t = y; ring⟩ fun _ =>
      .put (descent_inPlace n _ (by unfold downhill; rw [List.length_mapIdx]; exact h))

example (w : Nat → Bool) : bowl.optimise shiftOps bowlG bowlF [] w (descent 2) =
    bowl.optimise shiftOps bowlG bowlF [] (fun _ => false) (descent 2) :=
  watching_partial _ _ _ _ w _ bowl_ready (.inr (descent_inPlace 2)) (coherent_of_stale rfl)

/-- The same model, constrained. -/
def bowl' : State ℚ Nat := bowl.constrain shiftOps bowlG ⟨1, none⟩ true (.tr 3)

example : bowl'.cons (.tr 3) = [0] ∧
    (bowl'.optimise shiftOps bowlG bowlF [] (fun _ => true) (descent 1)).map (·.evals.map (·.2.grads)) = some [[4]] ∧
    (bowl'.optimise shiftOps bowlG bowlF [] (fun _ => true) (descent 2)).map (·.vals) = some [1 / 4] := by
  refine ⟨?_, ?_, ?_⟩ <;> decide +kernel

/-- The same with a copy of the start. -/
def descentCopy : Nat → List ℚ → Plan ℚ ℚ
  | 0, x => .done (some x)
  | n + 1, x => .ask (.grads x) fun a => descentCopy n (downhill x a.shown.grads)

theorem descentCopy_blind : ∀ n x, Blind (descentCopy n x)
  | 0, x => .done x
  | n + 1, _ => .ask (fun _ _ _ => rfl) (fun _ => descentCopy_blind n _)

example (w : Nat → Bool) : bowl.optimise shiftOps bowlG bowlF [] w (descentCopy 2) =
    bowl.optimise shiftOps bowlG bowlF [] (fun _ => false) (descentCopy 2) :=
  watching_partial _ _ _ _ w _ bowl_ready (.inl (descentCopy_blind 2)) (coherent_of_stale rfl)

example : (bowl.optimise shiftOps bowlG bowlF [] (fun _ => true) (descentCopy 2)).map (·.vals) = some [1 / 4] ∧
    (bowl.optimise shiftOps bowlG bowlF [] (fun _ => true) (descent 2)).map (·.vals) = some [1 / 4] := by
  refine ⟨?_, ?_⟩ <;> decide +kernel

/-- The model with a second parameter, which is fixed. -/
def bowlFixed : State ℚ Nat where
  heap := Hier.Heap.run Hier.Heap.empty [.newNode, .newParam 1, .newParam 1, .link 0 1 none, .link 0 2 none,
    .finishInit 0 true, .fix ⟨2, none⟩]
  root := 0
  vals := [1, 0]
  grad := [0, 0]
  copy := none
  fresh := false
  on := true

theorem bowlFixed_ready : Ready bowlFixed where
  reach := Hier.Heap.Reach.run .empty _ (by decide +kernel)
  lt := by decide +kernel
  root := by decide +kernel
  node := by decide +kernel
  inInit := by decide +kernel
  inited := by decide +kernel
  vals := by decide +kernel

example (w : Nat → Bool) (n : Nat) : bowlFixed.optimise shiftOps bowlG bowlF [] w (scgPlan { bowlSettings with shared := false } n) =
    bowlFixed.optimise shiftOps bowlG bowlF [] (fun _ => false) (scgPlan { bowlSettings with shared := false } n) :=
  watching_with_fixes _ _ _ _ w _ bowlFixed_ready (by decide +kernel)

example : (bowlFixed.optimise shiftOps bowlG bowlF [] (fun _ => true)
    (scgPlan { bowlSettings with shared := false } 1)).map (·.vals) = some [1 / 5, 0] := by
  decide +kernel

end Paramz.Opt
