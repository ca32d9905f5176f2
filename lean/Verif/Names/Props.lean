import Verif.Names.Settle

/-!
# Properties of names

C41 (names of siblings are unique), C42 (`adjust_name_for_printing`), C52 (parameters as attributes).
-/

namespace Paramz.Names

/-! ### C42 -/

theorem identifier_of_match {c : Char} {t : Name} (h1 : startChar c = true) (h2 : t.all restChar = true)
    (h3 : '-' ∉ t) : IsIdentifier (c :: t) := by
  refine ⟨c, t, rfl, startChar_iff.mp h1, fun d hd => ?_⟩
  rw [List.all_eq_true] at h2
  rcases restChar_iff.mp (h2 d hd) with h | h | h
  · exact .inl h
  · exact .inr h
  · subst h; exact absurd hd h3

/-- A printed name is an identifier, possibly followed by one line break. -/
theorem adjust_shape {s t : Name} (h : adjust s = some t) :
    IsIdentifier t ∨ ∃ u, t = u ++ ['\n'] ∧ IsIdentifier u := by
  obtain ⟨hm, ht⟩ := adjust_some.mp h
  have hc : '-' ∉ t := by rw [ht]; exact substitute_clean s '-' (by decide)
  rw [← ht] at hm
  clear ht h
  cases t with
  | nil => cases hm
  | cons c t =>
    rw [nameMatch_cons, Bool.and_eq_true] at hm
    obtain ⟨h1, h2⟩ := hm
    have hct : '-' ∉ t := fun h => hc (List.mem_cons_of_mem _ h)
    unfold restMatch at h2
    rw [Bool.or_eq_true, Bool.and_eq_true] at h2
    rcases h2 with h2 | ⟨h2, h3⟩
    · exact .inl (identifier_of_match h1 h2 hct)
    · right
      have h2 : t.getLast? = some '\n' := by simpa using h2
      have e : t = t.dropLast ++ ['\n'] := by
        have hne : t ≠ [] := by rintro rfl; cases h2
        have := List.dropLast_append_getLast hne
        rw [List.getLast?_eq_some_getLast hne] at h2
        rw [Option.some.inj h2] at this
        exact this.symm
      refine ⟨c :: t.dropLast, ?_, identifier_of_match h1 h3 (fun h => hct (List.dropLast_sublist t |>.subset h))⟩
      rw [List.cons_append, ← e]

/-- For names without line breaks, whatever is returned is an identifier. Missing for the full claim: a
line break at the end is let through (`adjust_newline_fails`). -/
theorem adjust_identifier_partial {s t : Name} (h : adjust s = some t) (hn : '\n' ∉ s) : IsIdentifier t := by
  rcases adjust_shape h with h' | ⟨u, rfl, -⟩
  · exact h'
  · exfalso
    obtain ⟨-, e⟩ := adjust_some.mp h
    have hm : '\n' ∈ substitute s := by rw [← e]; simp
    revert hm
    unfold substitute
    simp only []
    have key : ∀ {c : Char} {t s : Name}, '\n' ∉ s → '\n' ∉ t → '\n' ∉ replace1 c t s :=
      fun h1 h2 h3 => (mem_replace1 h3).elim h1 h2
    have keyS : ∀ {t s : Name}, '\n' ∉ s → '\n' ∉ t → '\n' ∉ replaceStars t s :=
      fun h1 h2 h3 => (mem_replaceStars h3).elim h1 h2
    exact key (key (key (key (key (keyS (key (key (key (key (key hn (by decide)) (by decide)) (by decide)) (by decide))
      (by decide)) (by decide)) (by decide)) (by decide)) (by decide)) (by decide)) (by decide)

/-- Printing a printed name changes nothing, for every string. -/
theorem adjust_idempotent {s t : Name} (h : adjust s = some t) : adjust t = some t := by
  obtain ⟨hm, ht⟩ := adjust_some.mp h
  have := substitute_id (substitute_clean s)
  rw [← ht] at this hm
  exact adjust_some.mpr ⟨by rw [this]; exact hm, this.symm⟩

/-- Identifiers are printed as they are. -/
theorem adjust_keeps_identifiers {s : Name} (h : IsIdentifier s) : adjust s = some s := by
  obtain ⟨c, t, rfl, h1, h2⟩ := h
  have hcl : ∀ d ∈ [' ', '.', '-', '+', '!', '*', '/', '@', '(', ')'], d ∉ c :: t := by
    intro d hd hm
    have : d.isAlphanum = true ∨ d = '_' := by
      rcases List.mem_cons.mp hm with rfl | hm
      · rcases h1 with h1 | h1
        · left; unfold Char.isAlphanum; rw [h1]; rfl
        · exact .inr h1
      · exact h2 d hm
    revert this hd
    simp only [List.mem_cons, List.not_mem_nil, or_false]
    rintro (rfl | rfl | rfl | rfl | rfl | rfl | rfl | rfl | rfl | rfl) <;> decide
  refine adjust_some.mpr ⟨?_, (substitute_id hcl).symm⟩
  rw [substitute_id hcl, nameMatch_cons, startChar_iff.mpr h1, Bool.true_and]
  unfold restMatch
  rw [Bool.or_eq_true]
  left
  rw [List.all_eq_true]
  intro d hd
  rw [restChar_iff]
  rcases h2 d hd with h | h
  · exact .inl h
  · exact .inr (.inl h)

example : adjust "a**b*(c-d)!".toList = some "a_xx_b_x__of_c_m_d_I_".toList ∧
    adjust "1a".toList = none ∧ adjust "".toList = none ∧ adjust "rbf.length scale".toList =
      some "rbf_length_scale".toList ∧ adjust "a***".toList = some "a_xx__x_".toList := by decide +kernel

theorem adjust_newline_fails : adjust "a\n".toList = some "a\n".toList ∧ ¬ IsIdentifier "a\n".toList := by
  refine ⟨by decide +kernel, ?_⟩
  rintro ⟨c, t, h, -, h2⟩
  have e : "a\n".toList = ['a', '\n'] := by decide +kernel
  rw [e] at h
  obtain ⟨rfl, rfl⟩ : 'a' = c ∧ ['\n'] = t := by simpa using h
  have := h2 '\n' (by simp)
  revert this; decide

/-- Python keywords are accepted as well; they cannot be written after a dot. -/
theorem adjust_keyword_fails : ∀ k ∈ keywords, adjust k = some k := by decide +kernel

/-! ### C41 -/

/-- A parameter keeps its name unless an earlier one has this name in the end. -/
theorem Settled.keeps {ns fs : List Name} (h : Settled ns fs) {i : Nat} {n : Name} (hi : ns[i]? = some n)
    (hfree : n ∉ fs.take i) : fs[i]? = some n := by
  obtain ⟨hlt, -⟩ := List.getElem?_eq_some_iff.mp hi
  have hlt' : i < fs.length := h.1 ▸ hlt
  obtain ⟨-, k, hk, hj⟩ := h.2 i n fs[i] hi (List.getElem?_eq_getElem hlt')
  cases k with
  | zero => rw [List.getElem?_eq_getElem hlt', hk]; rfl
  | succ k => exact absurd (hj 0 (by omega)) hfree

/-- The settled names are determined. -/
theorem Settled.unique {ns fs fs' : List Name} (h : Settled ns fs) (h' : Settled ns fs') : fs = fs' := by
  have key : ∀ i, fs.take i = fs'.take i := by
    intro i
    induction i with
    | zero => rfl
    | succ i ih =>
      rw [List.take_add_one, List.take_add_one, ih]
      congr 1
      by_cases hi : i < ns.length
      · have h1 : i < fs.length := h.1 ▸ hi
        have h2 : i < fs'.length := h'.1 ▸ hi
        obtain ⟨a1, k, hk, hj⟩ := h.2 i ns[i] fs[i] (List.getElem?_eq_getElem hi) (List.getElem?_eq_getElem h1)
        obtain ⟨b1, l, hl, hm⟩ := h'.2 i ns[i] fs'[i] (List.getElem?_eq_getElem hi) (List.getElem?_eq_getElem h2)
        rw [List.getElem?_eq_getElem h1, List.getElem?_eq_getElem h2]
        have : k = l := by
          rcases Nat.lt_trichotomy k l with h3 | h3 | h3
          · have := hm k h3
            rw [← hk, ← ih] at this
            exact absurd this a1
          · exact h3
          · have := hj l h3
            rw [← hl, ih] at this
            exact absurd this b1
        rw [hk, hl, this]
      · have h1 : ¬ i < fs.length := h.1 ▸ hi
        have h2 : ¬ i < fs'.length := h'.1 ▸ hi
        rw [List.getElem?_eq_none (by omega), List.getElem?_eq_none (by omega)]
  have := key ns.length
  rwa [List.take_of_length_le h.1.le, List.take_of_length_le h'.1.le] at this

theorem connect_done {n : Nat} {s s' : Fam} (w : WF s) (h : s.connect n = .ok s') : Done s s' := by
  unfold Fam.connect at h
  by_cases hk : s.kids = []
  · cases n with
    | zero => cases h
    | succ n =>
      have : go (n + 1) s none = .ok s := by
        show s.kids.foldlM (fun s x => go n s (some x)) s = _
        rw [hk]; rfl
      rw [this] at h
      cases h
      refine ⟨rfl, rfl, ?_, fun _ _ => rfl, fun h => h, fun x hx => by rw [hk] at hx; simp at hx⟩
      unfold Fam.names; rw [hk]; rfl
  · obtain ⟨h1, h2⟩ := go_connect n s w hk
    by_cases hn : 2 * cost [] s.names + 2 ≤ n
    · obtain ⟨s'', h3, h4⟩ := h1 hn
      rw [h3] at h
      cases h; exact h4
    · rw [h2 (by omega)] at h; cases h

theorem Done.wf {s s' : Fam} (w : WF s) (d : Done s s') : WF s' := by
  refine ⟨d.kids ▸ w.nodup, fun y hy => ?_⟩
  have hmem : s'.name y ∈ settle [] s.names := by
    rw [← d.names]; exact List.mem_map_of_mem hy
  obtain ⟨i, hi, hie⟩ := List.getElem_of_mem hmem
  have hi' : i < s.names.length := by rw [← settle_length [] s.names]; exact hi
  obtain ⟨-, k, hk', -⟩ := (settle_settled s.names).2 i _ _ (List.getElem?_eq_getElem hi')
    (List.getElem?_eq_getElem hi)
  rw [hie] at hk'
  rw [hk']
  have hg : Good (s.names[i]) := by
    have : s.names[i] ∈ s.names := List.getElem_mem hi'
    obtain ⟨z, hz, hze⟩ := List.mem_map.mp this
    rw [← hze]; exact w.good z hz
  clear hk' hie
  induction k with
  | zero => exact hg
  | succ k ihk => rw [Function.iterate_succ_apply']; exact nextName_good ihk

/-- Connecting resolves all clashes, in favour of the parameter that is earlier in the list. -/
theorem connect_unique {n : Nat} {s s' : Fam} (w : WF s) (h : s.connect n = .ok s') :
    s'.kids = s.kids ∧ Settled s.names s'.names ∧ s'.names.Nodup := by
  have d := connect_done w h
  have : Settled s.names s'.names := by rw [d.names]; exact settle_settled _
  exact ⟨d.kids, this, this.nodup⟩

/-- Renaming ends for every clash pattern. -/
theorem connect_terminates {s : Fam} (w : WF s) : ∃ N, ∀ n, N ≤ n → ∃ s', s.connect n = .ok s' := by
  by_cases hk : s.kids = []
  · refine ⟨1, fun n hn => ⟨s, ?_⟩⟩
    obtain ⟨m, rfl⟩ : ∃ m, n = m + 1 := ⟨n - 1, by omega⟩
    show s.kids.foldlM (fun s x => go m s (some x)) s = _
    rw [hk]; rfl
  · refine ⟨2 * cost [] s.names + 2, fun n hn => ?_⟩
    obtain ⟨s', h, -⟩ := (go_connect n s w hk).1 hn
    exact ⟨s', h⟩

theorem wf_link {s : Fam} (w : WF s) {x : Id} (hx : x ∉ s.kids) (hg : Good (s.name x)) (pos : Nat) :
    WF { s with kids := s.kids.take pos ++ x :: s.kids.drop pos } := by
  refine ⟨?_, fun y hy => ?_⟩
  · show (s.kids.take pos ++ x :: s.kids.drop pos).Nodup
    rw [List.nodup_middle, List.nodup_cons, List.take_append_drop]
    exact ⟨hx, w.nodup⟩
  · have hy : y ∈ s.kids.take pos ++ x :: s.kids.drop pos := hy
    rw [List.mem_append, List.mem_cons] at hy
    rcases hy with hy | rfl | hy
    · exact w.good y (List.mem_of_mem_take hy)
    · exact hg
    · exact w.good y (List.mem_of_mem_drop hy)

/-- After linking into the root of an initialised hierarchy the names are the settled ones. Missing for
the full claim: a parameter linked further down is not renamed (`link_below_root_fails`), and the
interpreter's recursion limit (`recursion_limit_fails`). -/
theorem link_unique_partial {n pos : Nat} {s s' : Fam} (w : WF s) {x : Id} (hx : x ∉ s.kids)
    (hg : Good (s.name x)) (h : s.link n x pos true = .ok s') :
    s'.kids = s.kids.take pos ++ x :: s.kids.drop pos ∧
    Settled ((s.kids.take pos ++ x :: s.kids.drop pos).map s.name) s'.names ∧ s'.names.Nodup := by
  unfold Fam.link at h
  simp only [if_true] at h
  exact connect_unique (wf_link w hx hg pos) h

/-- A parameter appended to uniquely named ones leaves their names alone. -/
theorem append_keeps_names {n : Nat} {s s' : Fam} (w : WF s) (hu : s.names.Nodup) {x : Id}
    (hx : x ∉ s.kids) (hg : Good (s.name x)) (h : s.link n x s.kids.length true = .ok s') :
    ∀ y ∈ s.kids, s'.name y = s.name y := by
  obtain ⟨h1, h2, -⟩ := link_unique_partial w hx hg h
  rw [List.take_length, List.drop_length] at h1 h2
  have hlen : s.names.length = s.kids.length := by unfold Fam.names; simp
  have e : (s.kids ++ [x]).map s.name = s.names ++ [s.name x] := by unfold Fam.names; simp
  rw [e] at h2
  have hset : s'.names = settle [] (s.names ++ [s.name x]) := h2.unique (settle_settled _)
  rw [(settle_prefix hu (fun _ _ => by simp)).1] at hset
  have hn' : s'.names = s.kids.map s'.name ++ [s'.name x] := by unfold Fam.names; rw [h1]; simp
  rw [hn'] at hset
  have := (List.append_inj hset (by unfold Fam.names; simp)).1
  intro y hy
  obtain ⟨i, hi, rfl⟩ := List.getElem_of_mem hy
  have h3 := congrArg (·[i]?) this
  simpa [Fam.names, hi] using h3

/-- After renaming a parameter (without the setter of anything else in between) the names are settled. -/
theorem rename_done {n : Nat} {s s' : Fam} (w : WF s) {x : Id} {new : Name} (hx : x ∈ s.kids)
    (hg : Good new) (hs : s.Sound) (h : s.rename n x new = .ok s') :
    WF s' ∧ s'.kids = s.kids ∧ Settled (s.kids.map (upd s.name x new)) s'.names ∧ s'.Sound ∧ s'.Complete := by
  unfold Fam.rename Fam.removeName at h
  obtain ⟨old, hold⟩ := Option.isSome_iff_exists.mp (w.good x hx).1
  rw [hold] at h
  simp only at h
  have w1 : WF (({ s with name := upd s.name x new } : Fam).delAttr old) := by
    refine ⟨w.nodup, fun y hy => ?_⟩
    show Good (upd s.name x new y)
    by_cases hyx : y = x
    · rw [hyx, upd_same]; exact hg
    · rw [upd_ne hyx]; exact w.good y hy
  have so1 : (({ s with name := upd s.name x new } : Fam).delAttr old).Sound := by
    intro m z hz
    have hz : (if m = old then none else s.attrs m) = some z := hz
    split at hz
    · cases hz
    · rename_i hmo
      obtain ⟨h1, h2⟩ := hs m z hz
      refine ⟨h1, ?_⟩
      show adjust (upd s.name x new z) = some m
      by_cases hzx : z = x
      · subst hzx; rw [hold] at h2; cases h2; exact absurd rfl hmo
      · rw [upd_ne hzx]; exact h2
  cases hc : (({ s with name := upd s.name x new } : Fam).delAttr old).connect n with
  | error e => rw [hc] at h; cases h
  | ok s1 =>
    rw [hc] at h
    have h : go n s1 (some x) = .ok s' := h
    have d := connect_done w1 hc
    have wd := d.wf w1
    have hu : s1.names.Nodup := by rw [d.names]; exact (settle_settled _).nodup
    have hx1 : x ∈ s1.kids := d.kids ▸ hx
    cases n with
    | zero => cases h
    | succ n =>
      obtain ⟨s2, g, e, -⟩ := go_add (n := n) wd hx1 ((names_nodup wd.nodup).mp hu x hx1)
      rw [g] at h
      cases h
      refine ⟨e.wf wd, e.kids.trans d.kids, ?_, e.sound (d.sound so1), ?_⟩
      · rw [e.names, d.names]; exact settle_settled _
      · intro y hy m hm
        rw [e.kids] at hy
        rw [e.name] at hm
        rcases d.complete y hy m hm with h' | h'
        · left; rw [e.own]; exact h'
        · exact .inr (e.attrs m h')

/-- Renaming `x` resolves the clashes it causes; the list is the one with the new name, settled. -/
theorem rename_unique {n : Nat} {s s' : Fam} (w : WF s) {x : Id} {new : Name} (hx : x ∈ s.kids)
    (hg : Good new) (hs : s.Sound) (h : s.rename n x new = .ok s') :
    s'.kids = s.kids ∧ Settled (s.kids.map (upd s.name x new)) s'.names ∧ s'.names.Nodup := by
  obtain ⟨-, h1, h2, -⟩ := rename_done w hx hg hs h
  exact ⟨h1, h2, h2.nodup⟩

theorem unlink_done {n : Nat} {s s' : Fam} (w : WF s) {x : Id} (hx : x ∈ s.kids) (hs : s.Sound)
    (h : s.unlink n x = .ok s') :
    WF s' ∧ s'.kids = s.kids.erase x ∧ Settled ((s.kids.erase x).map s.name) s'.names ∧ s'.Sound ∧
      s'.Complete := by
  unfold Fam.unlink Fam.removeName at h
  obtain ⟨old, hold⟩ := Option.isSome_iff_exists.mp (w.good x hx).1
  rw [hold] at h
  simp only at h
  have w1 : WF (({ s with kids := s.kids.erase x } : Fam).delAttr old) :=
    ⟨w.nodup.erase x, fun y hy => w.good y (List.mem_of_mem_erase hy)⟩
  have so1 : (({ s with kids := s.kids.erase x } : Fam).delAttr old).Sound := by
    intro m z hz
    have hz : (if m = old then none else s.attrs m) = some z := hz
    split at hz
    · cases hz
    · rename_i hmo
      obtain ⟨h1, h2⟩ := hs m z hz
      refine ⟨?_, h2⟩
      show z ∈ s.kids.erase x
      refine (List.mem_erase_of_ne ?_).mpr h1
      rintro rfl
      rw [hold] at h2; cases h2; exact hmo rfl
  cases hc : (({ s with kids := s.kids.erase x } : Fam).delAttr old).connect n with
  | error e => rw [hc] at h; cases h
  | ok s1 =>
    rw [hc] at h
    have h : s1.connect n = .ok s' := h
    have d := connect_done w1 hc
    have wd := d.wf w1
    have hu : s1.names.Nodup := by rw [d.names]; exact (settle_settled _).nodup
    have d2 := connect_done wd h
    refine ⟨d2.wf wd, d2.kids.trans d.kids, ?_, d2.sound (d.sound so1), d2.complete⟩
    rw [d2.names, (settle_nodup hu).1, d.names]; exact settle_settled _

theorem Reach.inv {s : Fam} (hr : Reach s) : WF s ∧ s.names.Nodup ∧ s.Sound ∧ s.Complete := by
  induction hr with
  | empty name own =>
    refine ⟨⟨List.nodup_nil, fun x hx => ?_⟩, List.nodup_nil, fun n z hz => ?_, fun x hx => ?_⟩
    · simp at hx
    · cases hz
    · simp at hx
  | @link s s' n pos x _ hx hg h ih =>
    have w1 := wf_link ih.1 hx hg pos
    have h : ({ s with kids := s.kids.take pos ++ x :: s.kids.drop pos } : Fam).connect n = .ok s' := by
      unfold Fam.link at h; simpa using h
    have d := connect_done w1 h
    refine ⟨d.wf w1, (connect_unique w1 h).2.2, d.sound ?_, d.complete⟩
    intro m z hz
    obtain ⟨h1, h2⟩ := ih.2.2.1 m z hz
    refine ⟨?_, h2⟩
    show z ∈ s.kids.take pos ++ x :: s.kids.drop pos
    rw [List.mem_append, List.mem_cons]
    rw [← List.take_append_drop pos s.kids, List.mem_append] at h1
    rcases h1 with h1 | h1
    · exact .inl h1
    · exact .inr (.inr h1)
  | unlink _ hx h ih =>
    obtain ⟨h1, -, h3, h4, h5⟩ := unlink_done ih.1 hx ih.2.2.1 h
    exact ⟨h1, h3.nodup, h4, h5⟩
  | rename _ hx hg h ih =>
    obtain ⟨h1, -, h3, h4, h5⟩ := rename_done ih.1 hx hg ih.2.2.1 h
    exact ⟨h1, h3.nodup, h4, h5⟩
  | @renameOutside s x new _ hx ih =>
    obtain ⟨w, hu, hs, hc⟩ := ih
    have same : ∀ y ∈ s.kids, upd s.name x new y = s.name y := fun y hy =>
      upd_ne (fun e => hx (e ▸ hy))
    refine ⟨⟨w.nodup, fun y hy => ?_⟩, ?_, fun m z hz => ?_, fun y hy m hm => ?_⟩
    · show Good (upd s.name x new y)
      rw [same y hy]; exact w.good y hy
    · have : ({ s with name := upd s.name x new } : Fam).names = s.names := List.map_congr_left same
      rw [this]; exact hu
    · obtain ⟨h1, h2⟩ := hs m z hz
      refine ⟨h1, ?_⟩
      show adjust (upd s.name x new z) = some m
      rw [same z h1]; exact h2
    · have hm : adjust (upd s.name x new y) = some m := hm
      rw [same y hy] at hm
      exact hc y hy m hm

/-- In every state reached by linking to and unlinking from a root, and renaming, the names are unique. -/
theorem reach_unique {s : Fam} (hr : Reach s) : s.names.Nodup := hr.inv.2.1

/-- Some objects with names. -/
def demoNames : Id → Name := fun i => ["x".toList, "x".toList, "x_1".toList, "y_09".toList, "y_09".toList,
  "a b".toList, "a_b".toList].getD i []

def demo : Fam := ⟨[0, 1, 2, 3, 4], demoNames, fun _ => none, fun _ => false⟩

/-- A computable view of a result. -/
def resultNames (r : Except Err Fam) : Option (List Name) := match r with
  | .ok s => some s.names
  | .error _ => none

example : resultNames (demo.connect 20) =
    some ["x".toList, "x_1".toList, "x_2".toList, "y_09".toList, "y_10".toList] := by decide +kernel

theorem demo_wf : WF demo := by
  have : ∀ x ∈ demo.kids, (adjust (demo.name x)).isSome = true ∧ '\n' ∉ demo.name x := by decide +kernel
  exact ⟨by decide +kernel, this⟩

example : ∃ s, demo.connect 20 = .ok s := by
  cases h : demo.connect 20 with
  | ok s => exact ⟨s, rfl⟩
  | error e =>
    have : resultNames (demo.connect 20) ≠ none := by decide +kernel
    rw [h] at this
    exact absurd rfl this

/-- Linking a parameter into an object that is not the root of the hierarchy does not rename it: siblings
end up with equal names. -/
theorem link_below_root_fails : ∃ (s s' : Fam) (n : Nat) (x : Id), WF s ∧ s.names.Nodup ∧ x ∉ s.kids ∧
    Good (s.name x) ∧ s.link n x 1 false = .ok s' ∧ ¬ s'.names.Nodup := by
  refine ⟨⟨[0], demoNames, fun _ => none, fun _ => false⟩,
    ⟨[0, 1], demoNames, fun _ => none, fun _ => false⟩, 10, 1, ⟨by decide, ?_⟩, by decide +kernel, by decide,
    ?_, rfl, by decide +kernel⟩
  · have : ∀ x ∈ [0], (adjust (demoNames x)).isSome = true ∧ '\n' ∉ demoNames x := by decide +kernel
    exact this
  · have : (adjust (demoNames 1)).isSome = true ∧ '\n' ∉ demoNames 1 := by decide +kernel
    exact this

/-- Whatever the recursion limit, there are names for which it is exceeded: the code renames by recursion,
one level per attempt. -/
theorem recursion_limit_fails : ∀ n, ∃ s : Fam, WF s ∧ s.connect n = .error .recursionError := by
  intro n
  let s : Fam := ⟨List.range (n + 2), fun _ => ['x'], fun _ => none, fun _ => false⟩
  have hg : Good ['x'] := by
    have : (adjust ['x']).isSome = true ∧ '\n' ∉ ['x'] := by decide +kernel
    exact this
  have w : WF s := ⟨List.nodup_range, fun _ _ => hg⟩
  refine ⟨s, w, ?_⟩
  have hne : s.kids ≠ [] := by
    show List.range (n + 2) ≠ []
    simp
  have hk : s.kids.length = n + 2 := List.length_range
  refine (go_connect n s w hne).2 ?_
  have hcost : ∀ (k : Nat) (F : List Name), ['x'] ∈ F → k ≤ cost F (List.replicate k ['x']) := by
    intro k
    induction k with
    | zero => intro F _; exact Nat.zero_le _
    | succ k ih =>
      intro F hF
      rw [List.replicate_succ, cost]
      have h1 := ih (F ++ [pick F ['x']]) (List.mem_append_left _ hF)
      have h2 := count_taken hF
      omega
  have hnames : s.names = List.replicate (n + 2) ['x'] := by
    show (List.range (n + 2)).map (fun _ => ['x']) = _
    rw [List.map_const', List.length_range]
  rw [hnames, List.replicate_succ, cost]
  have := hcost (n + 1) ([] ++ [pick [] ['x']]) (by
    rw [pick_free (by simp)]; simp)
  omega

/-! ### C52 -/

/-- In every such state, the attributes the library has added to the object are its parameters, each
stored under its own printed name; and a parameter is found under its printed name unless the object has
another attribute of that name, or another parameter has the same printed name. Missing for the full claim:
parameters with different names but the same printed name (`attribute_clash_fails`) and parameters linked
below the root. -/
theorem attributes_partial {s : Fam} (hr : Reach s) :
    (∀ n z, s.attrs n = some z → z ∈ s.kids ∧ adjust (s.name z) = some n) ∧
    (∀ x ∈ s.kids, ∀ n, adjust (s.name x) = some n → s.own n = false →
      (∀ y ∈ s.kids, adjust (s.name y) = some n → y = x) → s.attrs n = some x) := by
  obtain ⟨-, -, hs, hc⟩ := hr.inv
  refine ⟨hs, fun x hx n hn ho hu => ?_⟩
  rcases hc x hx n hn with h | h
  · rw [ho] at h; cases h
  · obtain ⟨z, hz⟩ := Option.isSome_iff_exists.mp h
    rw [hz, hu z (hs n z hz).1 (hs n z hz).2]

/-- A computable view of a result. -/
def resultView (r : Except Err Fam) (n : Name) : Option (List Id × List Name × Option Id) := match r with
  | .ok s => some (s.kids, s.names, s.attrs n)
  | .error _ => none

theorem of_view {r : Except Err Fam} {n : Name} {k : List Id} {ns : List Name} {z : Option Id}
    (h : resultView r n = some (k, ns, z)) : ∃ s, r = .ok s ∧ s.kids = k ∧ s.names = ns ∧ s.attrs n = z := by
  cases r with
  | error e => cases h
  | ok s =>
    have h : some (s.kids, s.names, s.attrs n) = some (k, ns, z) := h
    simp only [Option.some.injEq, Prod.mk.injEq] at h
    exact ⟨s, rfl, h⟩

theorem demo_good : ∀ x, x < 7 → Good (demoNames x) := by
  have : ∀ x, x < 7 → (adjust (demoNames x)).isSome = true ∧ '\n' ∉ demoNames x := by decide +kernel
  exact this

def demo0 : Fam := ⟨[], demoNames, fun _ => none, fun _ => false⟩

/-- `link_parameter` for object 5, then for object 6. -/
def demo2 : Except Err Fam := do
  let s ← demo0.link 10 5 0 true
  s.link 10 6 1 true

theorem demo2_view : resultView demo2 "a_b".toList =
    some ([5, 6], ["a b".toList, "a_b".toList], some 5) := by decide +kernel

theorem demo1_view : resultView (demo0.link 10 5 0 true) [] = some ([5], ["a b".toList], none) := by
  decide +kernel

theorem demo1_reach : ∃ s1, demo0.link 10 5 0 true = .ok s1 ∧ s1.kids = [5] ∧ Good (s1.name 6) ∧ Reach s1 := by
  obtain ⟨s1, h1, k1, -, -⟩ := of_view demo1_view
  have r0 : Reach demo0 := .empty demoNames (fun _ => false)
  have hx : 5 ∉ demo0.kids := List.not_mem_nil
  have hg : Good (demo0.name 5) := demo_good 5 (by decide)
  have r1 : Reach s1 := .link r0 hx hg h1
  refine ⟨s1, h1, k1, ?_, r1⟩
  have w1 := wf_link r0.inv.1 hx hg 0
  unfold Fam.link at h1
  simp only [if_true] at h1
  rw [(connect_done w1 h1).outside 6 (by decide)]
  exact demo_good 6 (by decide)

/-- Two parameters named `a b` and `a_b`: only one of them is an attribute. -/
theorem attribute_clash_fails : ∃ s : Fam, Reach s ∧ 5 ∈ s.kids ∧ 6 ∈ s.kids ∧ s.name 5 ≠ s.name 6 ∧
    ∀ n, s.attrs n ≠ some 6 := by
  obtain ⟨s1, h1, k1, hg, r1⟩ := demo1_reach
  have v := demo2_view
  unfold demo2 at v
  rw [h1] at v
  obtain ⟨s2, h2, k2, n2, a2⟩ := of_view v
  have h2 : s1.link 10 6 1 true = .ok s2 := h2
  have r2 : Reach s2 := .link r1 (by rw [k1]; decide) hg h2
  unfold Fam.names at n2
  rw [k2, List.map_cons, List.map_cons, List.cons.injEq, List.cons.injEq] at n2
  obtain ⟨e5, e6, -⟩ := n2
  refine ⟨s2, r2, by rw [k2]; decide, by rw [k2]; decide, by rw [e5, e6]; decide +kernel, fun n hn => ?_⟩
  have ha := ((attributes_partial r2).1 n 6 hn).2
  rw [e6, show adjust "a_b".toList = some "a_b".toList from by decide +kernel] at ha
  have ha := Option.some.inj ha
  rw [← ha, a2] at hn
  exact absurd (Option.some.inj hn) (by decide)

end Paramz.Names
