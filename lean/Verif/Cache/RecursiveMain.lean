import Verif.Cache.RecursiveProps

/-!
# Cached functions that call themselves: theorems (C84)
-/

namespace Paramz.Cache

variable {V N E R : Type} [LinearOrder N]

open Spec (Entry)

/-- C84 (partial), with writes. A function that calls itself through its cache, in any history of calls, writes,
resets, switching, creation and collection of objects: a call returns, and it returns or raises what the function
without cache does for the present contents. `K` holds for the inputs of the calls; the limit is not smaller than the
number of different inputs, or negative. Calls made by the function do not raise.
Missing: limits that are too small (`full_cache_fails`), exceptions of inner calls (`caught_exception_fails`),
calls that lead to calls with the same inputs because of ignored arguments (`ignored_argument_fails`); and what is
missing in `cached_call_coherent_partial`. -/
theorem recursive_call_coherent_partial (cfg : Cfg V N E R) (body : Body V N E R) (S : Nat × List N → Prop)
    (K : List Nat → Prop) (hop : DependsOnInputs cfg) (hone : OneSpelling cfg.ignore S) (hl : cfg.limit ≠ 0)
    (hmeans : Means cfg body S) (hself : NoSelf cfg body S) (hspelled : SpelledBody body S)
    (hclosed : ClosedBody cfg body K) (hraise : NeverRaises cfg body S)
    (hK : cfg.limit < 0 ∨ ∃ ks : List (List Nat), (ks.length : Int) ≤ cfg.limit ∧ ∀ l, K l → l ∈ ks)
    (us : List (UEv V N)) (s : St V R) (h : RHist cfg body us s)
    (hus : ∀ args kw, UEv.call args kw ∈ us → S (shape args kw) ∧ K (combine cfg.ignore args kw))
    (args : List Nat) (kw : List (N × Nat)) (hS : S (shape args kw)) (hin : K (combine cfg.ignore args kw))
    (va : List V) (vk : List (N × V)) (hva : valsOf s.w args = some va) (hvk : kwValsOf s.w kw = some vk) :
    (∃ n o, rcall cfg body n s args kw = some o) ∧
      ∀ n o, rcall cfg body n s args kw = some o → o.res = lift (cfg.op va vk) := by
  refine recursive_coherent hl hop hone (mode_room cfg hK)
    ⟨hmeans, hself, hspelled, hclosed, hraise⟩ (fun e he => by cases he) h hus ?_ hS hin hva hvk
  intro u _ hu t hP
  have hann : ∀ (f : Nat → Bool) (c : List (Entry R)) a w, (∀ e ∈ c, K e.args) →
      ∀ e ∈ Spec.announce f c a w, K e.args := by
    intro f c a w hc e he
    unfold Spec.announce at he
    split at he
    · obtain ⟨x, hx, rfl⟩ := List.mem_map.mp he
      split
      · exact hc x hx
      · exact hc x hx
    · exact hc e he
  cases u with
  | call a kw => exact absurd rfl (hu a kw)
  | write a v =>
    simp only [UEv.events, Spec.run, List.foldl_cons, List.foldl_nil]
    have h1 : ∀ e ∈ (Spec.step cfg t (.set a v)).1.cache, K e.args := by
      unfold Spec.step
      simp only
      split
      · split <;> exact hP
      · exact hP
    generalize Spec.step cfg t (.set a v) = x at h1 ⊢
    unfold Spec.step
    simp only
    split
    · split
      · intro e he
        dsimp only at he
        exact hann _ _ _ _ h1 e he
      · exact h1
    · exact h1
  | reset => intro e he; cases he
  | disable => intro e he; cases he
  | enable => exact hP
  | alloc a k v =>
    simp only [UEv.events, Spec.run, List.foldl_cons, List.foldl_nil, Spec.step]
    split <;> exact hP
  | free a =>
    simp only [UEv.events, Spec.run, List.foldl_cons, List.foldl_nil, Spec.step]
    split <;> exact hP

/-- C84 (partial), without writes: whatever the limit (not 0), and whether or not inner calls raise. Missing: as in
`recursive_call_coherent_partial`, except that the limit may be too small and inner calls may raise. -/
theorem recursive_call_constant_partial (cfg : Cfg V N E R) (body : Body V N E R) (S : Nat × List N → Prop)
    (hop : DependsOnInputs cfg) (hone : OneSpelling cfg.ignore S) (hl : cfg.limit ≠ 0)
    (hmeans : Means cfg body S) (hself : NoSelf cfg body S) (hspelled : SpelledBody body S)
    (us : List (UEv V N)) (s : St V R) (h : RHist cfg body us s)
    (hus : ∀ args kw, UEv.call args kw ∈ us → S (shape args kw)) (hw : ∀ a v, UEv.write a v ∉ us)
    (args : List Nat) (kw : List (N × Nat)) (hS : S (shape args kw))
    (va : List V) (vk : List (N × V)) (hva : valsOf s.w args = some va) (hvk : kwValsOf s.w kw = some vk) :
    (∃ n o, rcall cfg body n s args kw = some o) ∧
      ∀ n o, rcall cfg body n s args kw = some o → o.res = lift (cfg.op va vk) := by
  refine recursive_coherent hl hop hone (mode_fresh cfg)
    ⟨hmeans, hself, hspelled, fun _ _ _ _ _ _ _ => trivial, fun _ _ _ _ _ _ _ _ _ _ _ => trivial⟩
    (fun e he => by cases he) h (fun a kw hm => ⟨hus a kw hm, trivial⟩) ?_ hS trivial hva hvk
  intro u hmem hu t hP
  cases u with
  | call a kw => exact absurd rfl (hu a kw)
  | write a v => exact absurd hmem (hw a v)
  | reset => intro e he; cases he
  | disable => intro e he; cases he
  | enable => exact hP
  | alloc a k v =>
    simp only [UEv.events, Spec.run, List.foldl_cons, List.foldl_nil, Spec.step]
    split <;> exact hP
  | free a =>
    simp only [UEv.events, Spec.run, List.foldl_cons, List.foldl_nil, Spec.step]
    split <;> exact hP

/-! ### A function that returns does not call itself with the same inputs -/

omit [LinearOrder N] in
/-- The calls of a body that returns, return. -/
theorem Prog.calls_return {g : List Nat → List (N × Nat) → Option (Except (CErr E) R)} :
    ∀ {p : Prog N E R} {r}, p.eval g = some r → ∀ c ∈ p.calls g, ∃ r', g c.1 c.2 = some r' := by
  intro p
  induction p with
  | done r => intro r _ c hc; cases hc
  | call a kw k ih =>
    intro r hr c hc
    unfold Prog.eval at hr
    unfold Prog.calls at hc
    cases hg : g a kw with
    | none => rw [hg] at hr; cases hr
    | some x =>
      rw [hg] at hr hc
      rcases List.mem_cons.mp hc with rfl | hc
      · exact ⟨x, hg⟩
      · exact ih x hr c hc

omit [LinearOrder N] in
/-- The calls of a body that returns, whatever the depth at which they are listed. -/
theorem Prog.calls_same {g g' : List Nat → List (N × Nat) → Option (Except (CErr E) R)}
    (h : ∀ a kw r r', g a kw = some r → g' a kw = some r' → r = r') :
    ∀ {p : Prog N E R} {r}, p.eval g' = some r → ∀ c ∈ p.calls g, c ∈ p.calls g' := by
  intro p
  induction p with
  | done r => intro r _ c hc; cases hc
  | call a kw k ih =>
    intro r hr c hc
    unfold Prog.eval at hr
    unfold Prog.calls at hc ⊢
    cases hg' : g' a kw with
    | none => rw [hg'] at hr; cases hr
    | some x =>
      rw [hg'] at hr
      rcases List.mem_cons.mp hc with rfl | hc
      · exact List.mem_cons_self
      · cases hg : g a kw with
        | none => rw [hg] at hc; cases hc
        | some y =>
          rw [hg] at hc
          have e := h a kw y x hg hg'
          subst e
          exact List.mem_cons_of_mem _ (ih _ hr c hc)

theorem calls_depth {body : Body V N E R} {n m : Nat} {cell : Nat → Option (Obj V)} {args : List Nat}
    {kw : List (N × Nat)} {r : Except (CErr E) R} (h : uncached body (m + 1) cell args kw = some r) :
    ∀ c ∈ callsOf body n cell args kw, ∃ r', uncached body m cell c.1 c.2 = some r' := by
  intro c hc
  rw [uncached] at h
  split at h
  · exact Prog.calls_return h c (Prog.calls_same (fun a kw r r' h1 h2 => uncached_unique h1 h2) h c hc)
  · cases h

theorem keys_depth {cfg : Cfg V N E R} {body : Body V N E R} {S : Nat × List N → Prop}
    (hpos : ∀ σ, S σ → σ.2 = []) (hig : cfg.ignore = []) (hspelled : SpelledBody body S)
    {cell : Nat → Option (Obj V)} : ∀ {n m : Nat} {args : List Nat} {kw : List (N × Nat)} {r : Except (CErr E) R},
    S (shape args kw) → uncached body m cell args kw = some r → ∀ l ∈ keysOf cfg body n cell args kw,
    ∃ r', uncached body m cell l [] = some r' := by
  have kwnil : ∀ (args : List Nat) (kw : List (N × Nat)), S (shape args kw) → kw = [] := by
    intro args kw hS
    have h := hpos _ hS
    have : (shape args kw).2.length = kw.length := by simp [shape]
    rw [h] at this
    exact List.length_eq_zero_iff.mp this.symm
  have hcomb : ∀ args : List Nat, combine cfg.ignore args ([] : List (N × Nat)) = args := by
    intro args; rw [hig]; simp [combine]
  intro n
  induction n with
  | zero =>
    intro m args kw r hS h l hl
    cases kwnil args kw hS
    rw [keysOf, List.mem_singleton, hcomb] at hl
    subst hl
    exact ⟨r, h⟩
  | succ n ih =>
    intro m args kw r hS h l hl
    cases kwnil args kw hS
    rw [keysOf, hcomb] at hl
    rcases List.mem_cons.mp hl with rfl | hl
    · exact ⟨r, h⟩
    · obtain ⟨c, hc, hlc⟩ := List.mem_flatMap.mp hl
      cases m with
      | zero => cases h
      | succ m =>
        obtain ⟨r', hr'⟩ := calls_depth (n := n) h c hc
        obtain ⟨r'', hr''⟩ := ih (hspelled n cell args [] hS c hc) hr' l hlc
        exact ⟨r'', uncached_succ hr''⟩

/-- If all arguments are positional and none is ignored, a function that returns does not come back to the inputs it
was called with. -/
theorem noSelf_of_positional {cfg : Cfg V N E R} {body : Body V N E R} {S : Nat × List N → Prop}
    (hpos : ∀ σ, S σ → σ.2 = []) (hig : cfg.ignore = []) (hmeans : Means cfg body S)
    (hspelled : SpelledBody body S) : NoSelf cfg body S := by
  intro n w args kw hS hva hvk hm
  have hkw : kw = [] := by
    have h := hpos _ hS
    have : (shape args kw).2.length = kw.length := by simp [shape]
    rw [h] at this
    exact List.length_eq_zero_iff.mp this.symm
  subst hkw
  obtain ⟨va, hva⟩ := Option.ne_none_iff_exists'.mp hva
  obtain ⟨vk, hvk⟩ := Option.ne_none_iff_exists'.mp hvk
  obtain ⟨m, hm0⟩ := hmeans w args [] va vk hS hva hvk
  have hcomb : combine cfg.ignore args ([] : List (N × Nat)) = args := by rw [hig]; simp [combine]
  rw [hcomb] at hm
  have key : ∀ m r, uncached body m w.cell args [] ≠ some r := by
    intro m
    induction m with
    | zero => intro r h; cases h
    | succ m ih =>
      intro r h
      obtain ⟨c, hc, hlc⟩ := List.mem_flatMap.mp hm
      obtain ⟨r', hr'⟩ := calls_depth (n := n) h c hc
      obtain ⟨r'', hr''⟩ := keys_depth hpos hig hspelled (hspelled n w.cell args [] hS c hc) hr' args hlc
      exact ih r'' hr''
  exact key m _ hm0

/-! ### Histories that can be computed -/

/-- One event, at depth at most `n`. -/
def rstep (cfg : Cfg V N E R) (body : Body V N E R) (n : Nat) (s : St V R) : UEv V N → St V R
  | .call args kw => match rcall cfg body n s args kw with
    | some o => o.st
    | none => s
  | u => run cfg s u.events

/-- A call returns at depth `n`. -/
def rreturns (cfg : Cfg V N E R) (body : Body V N E R) (n : Nat) (s : St V R) : UEv V N → Bool
  | .call args kw => (rcall cfg body n s args kw).isSome
  | _ => true

/-- All calls of a history return at depth `n`. -/
def rall (cfg : Cfg V N E R) (body : Body V N E R) (n : Nat) : St V R → List (UEv V N) → Bool
  | _, [] => true
  | s, u :: us => rreturns cfg body n s u && rall cfg body n (rstep cfg body n s u) us

theorem rrun_hist {cfg : Cfg V N E R} {body : Body V N E R} {n : Nat} :
    ∀ {us : List (UEv V N)} {vs : List (UEv V N)} {s : St V R}, RHist cfg body vs s → rall cfg body n s us = true →
    RHist cfg body (vs ++ us) (us.foldl (rstep cfg body n) s) := by
  intro us
  induction us with
  | nil => intro vs s h _; rw [List.append_nil]; exact h
  | cons u us ih =>
    intro vs s h hr
    rw [rall, Bool.and_eq_true] at hr
    have e : vs ++ u :: us = (vs ++ [u]) ++ us := by simp
    rw [e]
    refine ih (h.next ?_) hr.2
    cases u with
    | call args kw =>
      obtain ⟨o, ho⟩ := Option.isSome_iff_exists.mp hr.1
      refine .inl ⟨n, o, ho, ?_⟩
      simp only [rstep]
      rw [ho]
    | _ => rfl

/-! ### Sum by splitting -/

/-- The sum of the contents of the arguments: the first one by a call, the rest by a call. -/
def splitBody : Body Nat Nat Unit Nat := fun cell args _ => match args with
  | [] => .done (.ok 0)
  | [a] => .done (.ok (((cell a).map Obj.val).getD 0))
  | a :: rest => .call [a] [] (fun
    | .ok x => .call rest [] (fun
      | .ok y => .done (.ok (x + y))
      | .error _ => .done (.error ()))
    | .error _ => .done (.error ()))

/-- Calls without keywords. -/
def Positional (σ : Nat × List Nat) : Prop := σ.2 = []

theorem positional_one : OneSpelling (N := Nat) [] Positional := by
  rintro ⟨a, b⟩ ⟨a', b'⟩ h h' hl
  cases h
  cases h'
  have e : ∀ k : Nat, kept [] (k, ([] : List Nat)) = k := by intro k; simp [kept]
  rw [e, e] at hl
  rw [hl]

theorem positional_kw {args : List Nat} {kw : List (Nat × Nat)} (h : Positional (shape args kw)) : kw = [] := by
  have : (shape args kw).2.length = kw.length := by simp [shape]
  rw [show (shape args kw).2 = [] from h] at this
  exact List.length_eq_zero_iff.mp this.symm

theorem split_calls {n : Nat} {cell : Nat → Option (Obj Nat)} {args : List Nat} {kw : List (Nat × Nat)}
    {c : List Nat × List (Nat × Nat)} (h : c ∈ callsOf splitBody n cell args kw) :
    ∃ a b rest, args = a :: b :: rest ∧ (c = ([a], []) ∨ c = (b :: rest, [])) := by
  unfold callsOf splitBody at h
  match args with
  | [] => cases h
  | [a] => cases h
  | a :: b :: rest =>
    refine ⟨a, b, rest, rfl, ?_⟩
    simp only [Prog.calls] at h
    rcases List.mem_cons.mp h with h | h
    · exact .inl h
    · split at h
      · cases h
      · rename_i r _
        cases r with
        | error e => cases h
        | ok x =>
          simp only [Prog.calls] at h
          rcases List.mem_cons.mp h with h | h
          · exact .inr h
          · split at h
            · cases h
            · rename_i r _
              cases r <;> cases h

theorem split_spelled : SpelledBody splitBody Positional := by
  intro n cell args kw _ c hc
  obtain ⟨a, b, rest, rfl, rfl | rfl⟩ := split_calls hc <;> rfl

theorem sum_inputs (limit : Int) : DependsOnInputs (sumCfg limit) := by
  intro va vk va' vk' hs hc
  have key : ∀ (va : List Nat) (vk : List (Nat × Nat)), va.sum + (vk.map Prod.snd).sum =
      (combine (sumCfg limit).ignore va vk).sum := by
    intro va vk
    have : (combine (sumCfg limit).ignore va vk).sum = va.sum +
        ((vk.insertionSort (fun x y => x.1 ≤ y.1)).map Prod.snd).sum := by
      simp [combine, sumCfg]
    rw [this, (((List.perm_insertionSort _ vk).map Prod.snd).sum_nat)]
  show Except.ok _ = Except.ok _
  rw [key, key, hc]

theorem split_means (limit : Int) : Means (sumCfg limit) splitBody Positional := by
  intro w args kw va vk hS hva hvk
  cases positional_kw hS
  refine ⟨args.length + 1, ?_⟩
  have hvk' : vk = [] := by simpa [kwValsOf] using hvk.symm
  subst hvk'
  clear hvk hS
  show _ = some (Except.ok (va.sum + 0))
  rw [Nat.add_zero]
  have hone : ∀ (n a v : Nat), (w.cell a).map Obj.val = some v →
      uncached splitBody (n + 1) w.cell [a] [] = some (.ok v) := by
    intro n a v hv
    rw [uncached]
    simp [hv, splitBody, Prog.eval, lift]
  have key : ∀ (args : List Nat) (va : List Nat), valsOf w args = some va →
      uncached splitBody (args.length + 1) w.cell args [] = some (.ok va.sum) := by
    intro args
    induction args with
    | nil =>
      intro va hva
      have : va = [] := by simpa [valsOf] using hva.symm
      subst this
      rfl
    | cons a rest ih =>
      intro va hva
      have hva' := hva
      unfold valsOf at hva
      rw [List.mapM_cons] at hva
      cases ha : (w.cell a).map Obj.val with
      | none => rw [ha] at hva; cases hva
      | some v =>
        rw [ha] at hva
        cases hr : rest.mapM (fun a => (w.cell a).map Obj.val) with
        | none => rw [hr] at hva; cases hva
        | some vr =>
          rw [hr] at hva
          have e : v :: vr = va := Option.some.inj hva
          subst e
          cases rest with
          | nil =>
            have : vr = [] := by simpa using hr.symm
            subst this
            rw [hone _ a v ha]
            simp
          | cons b rest =>
            have h2 := ih vr hr
            have h1 := hone (b :: rest).length a v ha
            unfold valsOf at hva'
            rw [uncached, hva']
            simp only [List.mapM_nil, splitBody, Prog.eval]
            rw [show (a :: b :: rest).length = (b :: rest).length + 1 from rfl, h1]
            simp only [Prog.eval]
            rw [h2]
            simp [Prog.eval, lift]
  exact key args va hva

theorem split_raise (limit : Int) : NeverRaises (sumCfg limit) splitBody Positional :=
  fun _ _ _ _ _ _ _ _ _ _ _ => ⟨_, rfl⟩

theorem split_self (limit : Int) : NoSelf (sumCfg limit) splitBody Positional :=
  noSelf_of_positional (fun _ h => h) rfl (split_means limit) split_spelled

/-- The outcome of a call after a history: the result and whether the operation ran. -/
def rask (cfg : Cfg Nat Nat Unit Nat) (body : Body Nat Nat Unit Nat) (us : List (UEv Nat Nat)) (args : List Nat)
    (kw : List (Nat × Nat)) : Option (Except (CErr Unit) Nat × Bool) :=
  (rcall cfg body 9 (us.foldl (rstep cfg body 9) init) args kw).map (fun o => (o.res, o.ran))

/-- Two objects; the sum, a write, the sum, a write. -/
def splitHist : List (UEv Nat Nat) := [.alloc 16 .observable 1, .alloc 32 .observable 5, .call [16, 32] [],
  .write 16 7, .call [16, 32] [], .write 16 9]

/-- With room for three entries all is well: the hypotheses of `recursive_call_coherent_partial` are met (here by
`K`), what a call inside has computed is used later (`ran` is false for `[32]`). -/
example :
    let K : List Nat → Prop := fun l => l ∈ [[16, 32], [16], [32]]
    RHist (sumCfg 3) splitBody splitHist (splitHist.foldl (rstep (sumCfg 3) splitBody 9) init) ∧
    ClosedBody (sumCfg 3) splitBody K ∧ NeverRaises (sumCfg 3) splitBody Positional ∧
    Means (sumCfg 3) splitBody Positional ∧ NoSelf (sumCfg 3) splitBody Positional ∧
    SpelledBody splitBody Positional ∧ DependsOnInputs (sumCfg 3) ∧
    OneSpelling (sumCfg 3).ignore Positional ∧
    ((3 : Int) < 0 ∨ ∃ ks : List (List Nat), (ks.length : Int) ≤ 3 ∧ ∀ l, K l → l ∈ ks) ∧
    (∀ args kw, UEv.call args kw ∈ splitHist → Positional (shape args kw) ∧ K (combine [] args kw)) ∧
    rask (sumCfg 3) splitBody splitHist [16, 32] [] = some (.ok 14, true) ∧
    rask (sumCfg 3) splitBody splitHist [32] [] = some (.ok 5, false) := by
  refine ⟨rrun_hist (vs := []) .start (by decide +kernel), ?_, split_raise 3, split_means 3, split_self 3,
    split_spelled, sum_inputs 3, positional_one, .inr ⟨[[16, 32], [16], [32]], by decide, fun l h => h⟩, ?_,
    by decide +kernel, by decide +kernel⟩
  · intro n cell args kw hK c hc
    obtain ⟨a, b, rest, rfl, h⟩ := split_calls hc
    have e : a = 16 ∧ b = 32 ∧ rest = [] := by
      have : combine (sumCfg 3).ignore (a :: b :: rest) kw = a :: b :: (rest ++ combine [] ([] : List Nat) kw) := by
        simp [combine, sumCfg]
      rw [this] at hK
      simp at hK
      exact ⟨hK.1, hK.2.1, hK.2.2.1⟩
    obtain ⟨rfl, rfl, rfl⟩ := e
    rcases h with rfl | rfl <;> decide
  · intro args kw h
    simp [splitHist] at h
    obtain ⟨rfl, rfl⟩ := h
    exact ⟨rfl, by decide⟩

/-- A history without writes, limit 1: `recursive_call_constant_partial` applies. -/
example :
    let us : List (UEv Nat Nat) := [.alloc 16 .observable 1, .alloc 32 .observable 5, .alloc 48 .observable 20,
      .call [16, 32, 48] [], .call [16, 32] []]
    RHist (sumCfg 1) splitBody us (us.foldl (rstep (sumCfg 1) splitBody 9) init) ∧
    (∀ a v, UEv.write a v ∉ us) ∧ rask (sumCfg 1) splitBody us [16, 32, 48] [] = some (.ok 26, true) := by
  refine ⟨rrun_hist (vs := []) .start (by decide +kernel), ?_, by decide +kernel⟩
  intro a v h
  simp at h

/-- C84 fails if there is room for two entries only: while the sum is computed again, the calls inside throw its own
entry out; `self.inputs_changed[cache_id] = False` and `self.cached_outputs[cache_id] = ...` (caching.py:185-186)
bring it back, but nothing observes the arguments for it. After the next write the old sum, 12, is returned without
running; it should be 14. The hypotheses on the function hold. -/
theorem full_cache_fails :
    RHist (sumCfg 2) splitBody splitHist (splitHist.foldl (rstep (sumCfg 2) splitBody 9) init) ∧
    NeverRaises (sumCfg 2) splitBody Positional ∧
    Means (sumCfg 2) splitBody Positional ∧ NoSelf (sumCfg 2) splitBody Positional ∧
    SpelledBody splitBody Positional ∧ DependsOnInputs (sumCfg 2) ∧
    valsOf (splitHist.foldl (rstep (sumCfg 2) splitBody 9) init).w [16, 32] = some [9, 5] ∧
    rask (sumCfg 2) splitBody splitHist [16, 32] [] = some (.ok 12, false) := by
  exact ⟨rrun_hist (vs := []) .start (by decide +kernel), split_raise 2, split_means 2, split_self 2,
    split_spelled, sum_inputs 2, by decide +kernel, by decide +kernel⟩

/-! ### Exceptions -/

/-- One argument: its contents, an exception if this is 0. Two: the sum, 0 in place of an exception. -/
def tryCfg : Cfg Nat Nat Unit Nat := ⟨10, [], [], fun va _ => match va with
  | [0] => .error ()
  | va => .ok va.sum⟩

/-- The code of it. -/
def tryBody : Body Nat Nat Unit Nat := fun cell args _ => match args with
  | [] => .done (.ok 0)
  | [a] => match ((cell a).map Obj.val).getD 0 with
    | 0 => .done (.error ())
    | v => .done (.ok v)
  | a :: rest => .call [a] [] (fun x => .call rest [] (fun y =>
      .done (.ok ((x.toOption.getD 0) + (y.toOption.getD 0)))))

/-- C84 fails if an exception of a call inside is caught: it empties the cache (caching.py:180-182) while the outer
result is computed again, and this result is then put back without observers. The limit is 10; after the second
write the old sum, 5, is returned without running. -/
theorem caught_exception_fails :
    let us : List (UEv Nat Nat) := [.alloc 16 .observable 1, .alloc 32 .observable 5, .call [16, 32] [],
      .write 16 0, .call [16, 32] [], .write 16 9]
    RHist tryCfg tryBody us (us.foldl (rstep tryCfg tryBody 9) init) ∧
    valsOf (us.foldl (rstep tryCfg tryBody 9) init).w [16, 32] = some [9, 5] ∧
    tryCfg.op [9, 5] [] = .ok 14 ∧
    (uncached tryBody 9 (us.foldl (rstep tryCfg tryBody 9) init).w.cell [16, 32] []).map
      (fun r => r.toOption) = some (some 14) ∧
    rask tryCfg tryBody us [16, 32] [] = some (.ok 5, false) := by
  refine ⟨rrun_hist (vs := []) .start (by decide +kernel), by decide +kernel, rfl, by decide +kernel,
    by decide +kernel⟩

/-! ### Ignored arguments -/

/-- The contents of the first argument; the second one is ignored. -/
def deepCfg : Cfg Nat Nat Unit Nat := ⟨2, [1], [], fun va _ => .ok (va.headD 0)⟩

/-- If the second argument is the object 64 the function calls itself with the object 48 in place of it. -/
def deepBody : Body Nat Nat Unit Nat := fun cell args _ => match args with
  | [a, 64] => .call [a, 48] [] (fun r => .done (.ok (r.toOption.getD 0)))
  | args => .done (.ok (((cell (args.headD 0)).map Obj.val).getD 0))

/-- C84 fails if a call leads to a call with the same inputs, different in an ignored argument only: both put the
same key into the queue, and when it is taken out the second time `ensure_cache_length` raises `KeyError`
(caching.py:106), in a call of something else. -/
theorem ignored_argument_fails :
    let us : List (UEv Nat Nat) := [.alloc 16 .observable 1, .alloc 32 .observable 5, .alloc 80 .observable 6,
      .alloc 48 .other 0, .alloc 64 .other 1, .call [16, 64] [], .call [32, 48] []]
    RHist deepCfg deepBody us (us.foldl (rstep deepCfg deepBody 9) init) ∧
    (uncached deepBody 9 (us.foldl (rstep deepCfg deepBody 9) init).w.cell [80, 48] []).map
      (fun r => r.toOption) = some (some 6) ∧
    rask deepCfg deepBody us [80, 48] [] = some (.error .keyError, true) := by
  refine ⟨rrun_hist (vs := []) .start (by decide +kernel), by decide +kernel, by decide +kernel⟩

end Paramz.Cache
