import Verif.Run.SharedGrad

set_option linter.unusedSectionVars false

/-!
# Lengths of vectors in SCG; a start where the gradient vanishes

Source: `paramz/optimization/scg.py:44-174`. For C66.
-/

namespace Paramz.Run.SCG

variable {K : Type} [Field K] [LinearOrder K]

/-- All vectors have `n` entries. -/
structure Sized (n : Nat) (s : St K) : Prop where
  x : s.x.length = n
  d : s.d.length = n
  new : s.gradnew.length = n
  old : s.gradold.length = n

/-- Gradients have as many entries as points. -/
structure Problem.Sized (P : Problem K) (n : Nat) : Prop where
  grad : ∀ x : List K, x.length = n → (P.gradf x).length = n
  left : P.shared = true → ∀ x : List K, x.length = n → (P.left x).length = n

theorem sub_length (a b : List K) : (sub a b).length = min a.length b.length := by
  unfold sub; rw [List.length_zipWith]

theorem touch_sized {P : Problem K} {n : Nat} {v : List K} {s : St K} (hv : P.shared = true → v.length = n)
    (h : Sized n s) : Sized n (touch P v s) := by
  unfold touch
  refine ⟨h.x, h.d, ?_, ?_⟩
  · show (if P.shared then v else s.gradnew).length = n
    split
    · rename_i hs; exact hv hs
    · exact h.new
  · show (if P.shared then v else s.gradold).length = n
    split
    · rename_i hs; exact hv hs
    · exact h.old

theorem direction_length {n : Nat} {s : St K} (h : Sized n s) : (direction s).length = n := by
  unfold direction; split
  · rw [neg_length]; exact h.new
  · exact h.d

theorem curvature_sized {P : Problem K} {n : Nat} (hP : P.Sized n) {s : St K} (h : Sized n s) :
    Sized n (curvature P s) := by
  have hd := direction_length h
  unfold curvature
  split
  · simp only
    split
    · exact ⟨h.x, hd, h.new, h.old⟩
    · have hg : (P.gradf (axpy s.x ((1 / 10000000) / P.sqrt (dot (direction s) (direction s))) (direction s))).length = n :=
        hP.grad _ (by rw [axpy_length, h.x, hd, Nat.min_self])
      have ht := touch_sized (P := P) (fun _ => hg) h
      exact ⟨ht.x, hd, ht.new, ht.old⟩
  · exact h

theorem redirect_sized {n : Nat} {s : St K} (h : Sized n s) : Sized n (redirect s) := by
  unfold redirect
  split
  · exact ⟨h.x, by rw [neg_length]; exact h.new, h.new, h.old⟩
  · split
    · refine ⟨h.x, ?_, h.new, h.old⟩
      show (sub (s.d.map _) s.gradnew).length = n
      rw [sub_length, List.length_map, h.d, h.new, Nat.min_self]
    · exact h

theorem live_sized {P : Problem K} {n : Nat} (hP : P.Sized n) {s : St K} (h : Sized n s) : Sized n (live P s).1 := by
  have hx : (axpy s.x (alphaOf s) s.d).length = n := by rw [axpy_length, h.x, h.d, Nat.min_self]
  have ht := touch_sized (P := P) (fun hs => hP.left hs _ hx) h
  have hg := hP.grad _ hx
  unfold live
  simp only
  split
  · split
    · exact ⟨hx, ht.d, ht.new, ht.old⟩
    · split
      · exact ⟨hx, ht.d, ht.new, ht.old⟩
      · have hto : ∀ u : St K, Sized n u → Sized n (touch P (P.gradf (axpy s.x (alphaOf s) s.d)) u) :=
          fun u hu => touch_sized (fun _ => hg) hu
        have h2 := hto _ (⟨hx, ht.d, ht.new, ht.new⟩ : Sized n
          { touch P (P.left (axpy s.x (alphaOf s) s.d)) s with
            x := axpy s.x (alphaOf s) s.d, beta := betaOf s, success := true,
            nsuccess := (touch P (P.left (axpy s.x (alphaOf s) s.d)) s).nsuccess + 1,
            log := P.f (axpy s.x (alphaOf s) s.d) :: (touch P (P.left (axpy s.x (alphaOf s) s.d)) s).log,
            evals := (touch P (P.left (axpy s.x (alphaOf s) s.d)) s).evals + 1,
            gradold := (touch P (P.left (axpy s.x (alphaOf s) s.d)) s).gradnew })
        split
        · exact ⟨hx, h2.d, hg, h2.old⟩
        · exact redirect_sized ⟨hx, h2.d, hg, h2.old⟩
  · exact redirect_sized ⟨ht.x, ht.d, ht.new, ht.old⟩

theorem pass_sized {P : Problem K} {n : Nat} (hP : P.Sized n) {s : St K} (h : Sized n s) : Sized n (pass P s).1 := by
  have hc := curvature_sized hP h
  unfold pass
  simp only
  split
  · unfold stuck
    exact redirect_sized ⟨hc.x, hc.d, hc.new, hc.old⟩
  · exact live_sized hP hc

theorem loop_sized {P : Problem K} {n : Nat} (hP : P.Sized n) : ∀ (m : Nat) (s : St K), Sized n s →
    Sized n (loop P m s).1
  | 0, _, h => h
  | m + 1, s, h => by
    have h1 := pass_sized hP h
    rw [loop]
    cases hp : pass P s with
    | mk t o =>
      rw [hp] at h1
      cases o with
      | some st => exact h1
      | none => exact loop_sized hP m t h1

/-- The point returned has as many entries as the start. -/
theorem run_length {P : Problem K} {x : List K} (hP : P.Sized x.length) (m : Nat) :
    (run P x m).x.length = x.length := by
  have hg := hP.grad x rfl
  exact (loop_sized hP m (start P x) ⟨rfl, by show (neg (P.gradf x)).length = _; rw [neg_length]; exact hg, hg, hg⟩).x

/-- Nothing moves after a vanishing direction. -/
theorem loop_dead [IsStrictOrderedRing K] (P : Problem K) : ∀ (m : Nat) (s : St K), s.dead = true → s.success = false →
    (loop P m s).1.x = s.x
  | 0, _, _, _ => rfl
  | m + 1, s, hd, hs => by
    have hc : curvature P s = s := by unfold curvature; simp [hs]
    have hp : pass P s = stuck s := by
      unfold pass; rw [hc]; simp [hd]
    rw [loop, hp]
    unfold stuck
    simp only
    have hsucc : ∀ t : St K, t.success = false → (redirect t).success = false := by
      intro t ht; unfold redirect; split
      · exact ht
      · split
        · rename_i h; rw [ht] at h; cases h
        · exact ht
    rw [loop_dead P m _ (by rw [redirect_dead]; exact hd) (hsucc _ rfl), redirect_x]

/-- If the gradient vanishes at the start, SCG returns the start. -/
theorem run_of_zero [IsStrictOrderedRing K] (P : Problem K) (x : List K) (h0 : ∀ y ∈ P.gradf x, y = 0) (m : Nat) :
    (run P x m).x = x := by
  have hdz : ∀ a b : List K, (∀ y ∈ a, y = 0) → dot a b = 0 := by
    intro a
    induction a with
    | nil => intro b _; simp [dot]
    | cons y a ih =>
      intro b h
      cases b with
      | nil => simp [dot]
      | cons z b =>
        have := ih b (fun y hy => h y (List.mem_cons_of_mem _ hy))
        unfold dot at this ⊢
        rw [List.zipWith_cons_cons, List.sum_cons, this, h y List.mem_cons_self]
        ring
  show (loop P m (start P x)).1.x = x
  cases m with
  | zero => rfl
  | succ m =>
    have hdir : dot (direction (start P x)) (direction (start P x)) = 0 := by
      have e : direction (start P x) = neg (P.gradf x) := direction_eq rfl
      rw [e, dot_neg_neg, hdz _ _ h0]
    have hp : pass P (start P x) = stuck { start P x with
        d := direction (start P x), mu := dot (direction (start P x)) (P.gradf x), kappa := 0, dead := true,
        evals := 3 } := by
      unfold pass curvature
      have hs : (start P x).success = true := rfl
      simp only [hs, if_true, hdir]
      rfl
    rw [loop, hp]
    unfold stuck
    simp only
    have hsucc : ∀ t : St K, t.success = false → (redirect t).success = false := by
      intro t ht; unfold redirect; split
      · exact ht
      · split
        · rename_i h; rw [ht] at h; cases h
        · exact ht
    rw [loop_dead P m _ (by rw [redirect_dead]) (hsucc _ rfl), redirect_x]
    rfl

end Paramz.Run.SCG
