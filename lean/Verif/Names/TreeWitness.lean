import Verif.Names.TreeReturn

/-!
# Names in whole hierarchies: examples and counterexamples (C83)
-/

namespace Paramz.Names

namespace World

/-- Calls one after the other; exceptions are caught by the caller. -/
def execs (n : Nat) (w : World) (ops : List Op) : World := ops.foldl (fun w op => (w.exec n op).1) w

/-- The exceptions of these calls. -/
def raised (n : Nat) : World → List Op → List (Option Exc)
  | _, [] => []
  | w, op :: ops => (w.exec n op).2 :: raised n (w.exec n op).1 ops

def okAdm (w : World) : Op → Bool
  | .create _ m _ => decide ('\n' ∉ m)
  | .finish x _ => decide (x < w.next)
  | .link p x _ => decide (p < w.next) && decide (x < w.next)
  | .unlink p x => decide (p < w.next) && decide (x < w.next)
  | .rename x new => decide (x < w.next) && (decide ('\n' ∉ new) && match w.parent x with
    | none => true
    | some q => decide (x ∈ w.kids q))
  | .initialise x => decide (x < w.next)
  | .assign p _ => decide (p < w.next)

def okUp (w : World) : Op → Bool
  | .link p x _ => decide (w.parent p = none) && ((w.building p || w.inited p) && !w.building x)
  | .finish x ini => w.building x && ini
  | _ => true

def adms (n : Nat) : World → List Op → Bool
  | _, [] => true
  | w, op :: ops => w.okAdm op && adms n (w.exec n op).1 ops

def ups (n : Nat) : World → List Op → Bool
  | _, [] => true
  | w, op :: ops => w.okAdm op && (w.okUp op && ((w.exec n op).2.isNone && ups n (w.exec n op).1 ops))

theorem okAdm_sound {w : World} {op : Op} (h : w.okAdm op = true) : w.Admissible op := by
  cases op with
  | create b m o => exact of_decide_eq_true (p := '\n' ∉ m) h
  | finish x b => exact of_decide_eq_true (p := x < w.next) h
  | link p x pos =>
    have h : (decide (p < w.next) && decide (x < w.next)) = true := h
    rw [Bool.and_eq_true] at h
    exact ⟨of_decide_eq_true h.1, of_decide_eq_true h.2⟩
  | unlink p x =>
    have h : (decide (p < w.next) && decide (x < w.next)) = true := h
    rw [Bool.and_eq_true] at h
    exact ⟨of_decide_eq_true h.1, of_decide_eq_true h.2⟩
  | rename x new =>
    unfold okAdm at h
    rw [Bool.and_eq_true, Bool.and_eq_true] at h
    refine ⟨of_decide_eq_true h.1, of_decide_eq_true h.2.1, fun q hq => ?_⟩
    have h3 := h.2.2
    rw [hq] at h3
    exact of_decide_eq_true h3
  | initialise x => exact of_decide_eq_true (p := x < w.next) h
  | assign p a => exact of_decide_eq_true (p := p < w.next) h

theorem okUp_sound {w : World} {op : Op} (h : w.okUp op = true) : w.BottomUp op := by
  cases op with
  | link p x pos =>
    unfold okUp at h
    rw [Bool.and_eq_true, Bool.and_eq_true, Bool.or_eq_true, Bool.not_eq_true'] at h
    exact ⟨of_decide_eq_true h.1, h.2.1, h.2.2⟩
  | finish x b =>
    unfold okUp at h
    rw [Bool.and_eq_true] at h
    exact h
  | create b m o => trivial
  | unlink p x => trivial
  | rename x new => trivial
  | initialise x => trivial
  | assign p a => trivial

theorem reach_execs {n : Nat} : ∀ {ops : List Op} {w : World}, Reach w → adms n w ops = true →
    Reach (execs n w ops)
  | [], _, h, _ => h
  | op :: ops, w, h, ha => by
    unfold adms at ha
    rw [Bool.and_eq_true] at ha
    exact reach_execs (w := (w.exec n op).1) (.step h (okAdm_sound ha.1)) ha.2

theorem built_execs {n : Nat} : ∀ {ops : List Op} {w : World}, Built w → ups n w ops = true →
    Built (execs n w ops)
  | [], _, h, _ => h
  | op :: ops, w, h, ha => by
    unfold ups at ha
    rw [Bool.and_eq_true, Bool.and_eq_true, Bool.and_eq_true] at ha
    refine built_execs (w := (w.exec n op).1) (.step (n := n) (op := op) h (okAdm_sound ha.1) (okUp_sound ha.2.1) ?_) ha.2.2.2
    refine Prod.ext rfl ?_
    exact Option.isNone_iff_eq_none.mp ha.2.2.1

theorem returned {r : World × Option Exc} (h : r.2 = none) : r = (r.1, none) := Prod.ext rfl h

private def nm (s : String) : Name := s.toList

private def param (s : String) : Op := .create true (nm s) (fun _ => false)

private def part (s : String) : Op := .create false (nm s) (fun _ => false)

/-- A model (0) with a parameter `a` (1), a part (2) made with a parameter `x y` (3) in its constructor and another
`x y` (4) after it, and a further parameter `a` (5). -/
private def demo : List Op :=
  [part "m", .finish 0 true, param "a", .link 0 1 none, part "p", param "x y", .link 2 3 none, .finish 2 true,
    param "x y", .link 2 4 none, .link 0 2 none, param "a", .link 0 5 none]

/-- It is built from the bottom, so every object of it is neat; two parameters have been renamed. -/
example : Built (execs 9 empty demo) ∧ (∀ p, p < (execs 9 empty demo).next → Neat (execs 9 empty demo) p) ∧
    (execs 9 empty demo).kids 0 = [1, 2, 5] ∧ (execs 9 empty demo).kids 2 = [3, 4] ∧
    (execs 9 empty demo).name 5 = nm "a_1" ∧ (execs 9 empty demo).attrs 0 (nm "a_1") = some 5 ∧
    (execs 9 empty demo).name 4 = nm "x y_1" ∧ (execs 9 empty demo).attrs 2 (nm "x_y_1") = some 4 ∧
    (execs 9 empty demo).attrs 0 (nm "p") = some 2 := by
  have hb : Built (execs 9 empty demo) := built_execs .empty (by decide +kernel)
  refine ⟨hb, fun p hp => built_neat hb hp ?_, by decide +kernel, by decide +kernel, by decide +kernel,
    by decide +kernel, by decide +kernel, by decide +kernel, by decide +kernel⟩
  have h6 : (execs 9 empty demo).next = 6 := by decide +kernel
  rw [h6] at hp
  have : ∀ p : Nat, p < 6 → (execs 9 empty demo).building p = false := by decide +kernel
  exact this p hp

/-- Renaming, moving and unlinking in it return. -/
example : raised 9 (execs 9 empty demo)
      [.rename 5 (nm "b"), .rename 3 (nm "z"), .unlink 0 2, .link 2 5 none, .unlink 0 5, .link 2 5 (some 0),
        .link 0 5 none, .assign 0 (nm "b")] =
    [none, none, none, none, some .hierarchyError, none, none, none] := by
  decide +kernel

/-- Nothing is renamed, and nothing found, when a parameter is linked below an initialised root. -/
theorem below_root_fails : ∃ w : World, Reach w ∧ raised 9 empty
      [part "m", .finish 0 true, part "p", .finish 1 true, .link 0 1 none, param "a", .link 1 2 none, param "a",
        .link 1 3 none] = List.replicate 9 none ∧
    w = execs 9 empty [part "m", .finish 0 true, part "p", .finish 1 true, .link 0 1 none, param "a",
        .link 1 2 none, param "a", .link 1 3 none] ∧
    w.kids 1 = [2, 3] ∧ w.name 2 = w.name 3 ∧ w.attrs 1 (nm "a") = none := by
  refine ⟨_, reach_execs .empty ?_, ?_, rfl, ?_, ?_, ?_⟩ <;> decide +kernel

/-- Moving a parameter within a part that is not the root takes its attribute away. -/
theorem moved_attribute_fails : ∃ w w' : World, Reach w ∧ Neat w 2 ∧
    w.exec 9 (.link 2 4 (some 0)) = (w', none) ∧
    w'.kids 2 = [4, 3] ∧ w'.name 4 = nm "x y_1" ∧ w.attrs 2 (nm "x_y_1") = some 4 ∧
    w'.attrs 2 (nm "x_y_1") = none := by
  have hb : Built (execs 9 empty demo) := built_execs .empty (by decide +kernel)
  have h2 : (2 : Nat) < (execs 9 empty demo).next := by decide +kernel
  have h3 : (execs 9 empty demo).building 2 = false := by decide +kernel
  have h4 : ((execs 9 empty demo).exec 9 (.link 2 4 (some 0))).2 = none := by decide +kernel
  refine ⟨execs 9 empty demo, ((execs 9 empty demo).exec 9 (.link 2 4 (some 0))).1, hb.reach,
    built_neat hb h2 h3, returned h4, ?_, ?_, ?_, ?_⟩ <;> decide +kernel

/-- A parameter whose name cannot be printed is linked although the call raises; `unlink_parameter` raises as well,
takes it out of the list and leaves it its parent. Renamed twice, it is an attribute of an object it is not a
parameter of. -/
theorem left_over_attribute_fails :
    raised 9 empty [part "m", .finish 0 true, param "1a", .link 0 1 none, .unlink 0 1, .rename 1 (nm "a"),
        .rename 1 (nm "b")] =
      [none, none, none, some (.names .nameError), some (.names .nameError), some (.names .nameError), none] ∧
    (execs 9 empty [part "m", .finish 0 true, param "1a", .link 0 1 none]).kids 0 = [1] ∧
    (execs 9 empty [part "m", .finish 0 true, param "1a", .link 0 1 none, .unlink 0 1]).kids 0 = [] ∧
    (execs 9 empty [part "m", .finish 0 true, param "1a", .link 0 1 none, .unlink 0 1]).parent 1 = some 0 ∧
    (execs 9 empty [part "m", .finish 0 true, param "1a", .link 0 1 none, .unlink 0 1, .rename 1 (nm "a"),
        .rename 1 (nm "b")]).attrs 0 (nm "b") = some 1 ∧
    (execs 9 empty [part "m", .finish 0 true, param "1a", .link 0 1 none, .unlink 0 1, .rename 1 (nm "a"),
        .rename 1 (nm "b")]).kids 0 = [] := by
  refine ⟨?_, ?_, ?_, ?_, ?_, ?_⟩ <;> decide +kernel

/-- The object with the bad name, and the one left over, are reached. -/
example : Reach (execs 9 empty [part "m", .finish 0 true, param "1a", .link 0 1 none]) ∧
    Reach (execs 9 empty [part "m", .finish 0 true, param "1a", .link 0 1 none, .unlink 0 1]) :=
  ⟨reach_execs .empty (by decide +kernel), reach_execs .empty (by decide +kernel)⟩

/-- The bad name is in the way of everything. -/
example : raised 9 (execs 9 empty [part "m", .finish 0 true, param "c", .link 0 1 none, param "1a", .link 0 2 none])
      [.rename 2 (nm "a"), .unlink 0 1, .initialise 0, .assign 0 (nm "z")] =
    [some (.names .nameError), none, none, none] := by
  decide +kernel

/-- A state that meets the hypotheses of `call_returns`. -/
example : ∃ w, w = execs 9 empty [part "m", param "a", .link 0 1 none] ∧ Reach w ∧ Printable w ∧ Forest w ∧
    w.kids 0 = [1] ∧ ∃ N w' e, (∀ n, N ≤ n → w.exec n (.finish 0 true) = (w', e)) ∧
      (e = none ∨ e = some .hierarchyError) := by
  have hk : ∀ p, (execs 9 empty [part "m", param "a", .link 0 1 none]).kids p =
      upd (upd (upd (fun _ => []) 0 []) 1 []) 0 [1] p := fun p => rfl
  have hp : ∀ p, (execs 9 empty [part "m", param "a", .link 0 1 none]).parent p =
      upd (upd (upd (fun _ => none) 0 none) 1 none) 1 (some 0) p := fun p => rfl
  have h1 : Reach (execs 9 empty [part "m", param "a", .link 0 1 none]) := reach_execs .empty (by decide +kernel)
  have h2 : Printable (execs 9 empty [part "m", param "a", .link 0 1 none]) := by
    intro p x hx
    rw [hk] at hx
    unfold upd at hx
    split at hx
    · rw [List.mem_singleton] at hx
      rw [hx]
      decide +kernel
    · split at hx
      · simp at hx
      · simp at hx
  have h3 : Forest (execs 9 empty [part "m", param "a", .link 0 1 none]) := by
    refine ⟨fun y => y, fun x p hx => ?_⟩
    rw [hp] at hx
    unfold upd at hx
    split at hx
    · rename_i h
      cases hx
      show 0 < x
      rw [h]
      decide
    · simp at hx
  exact ⟨_, rfl, h1, h2, h3, rfl, call_returns h1 h2 h3 (op := .finish 0 true) trivial (by
    show 0 < (execs 9 empty [part "m", param "a", .link 0 1 none]).next
    decide +kernel)⟩

end World

end Paramz.Names
