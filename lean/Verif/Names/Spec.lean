import Verif.Names.Model

/-!
# What names should look like
-/

namespace Paramz.Names

/-- ASCII identifiers as Python defines them: a letter or underscore, then letters, digits, underscores. -/
def IsIdentifier (s : Name) : Prop :=
  ∃ c t, s = c :: t ∧ (c.isAlpha = true ∨ c = '_') ∧ ∀ d ∈ t, d.isAlphanum = true ∨ d = '_'

/-- The keywords of Python 3. -/
def keywords : List Name := ["False", "None", "True", "and", "as", "assert", "async", "await", "break", "class",
  "continue", "def", "del", "elif", "else", "except", "finally", "for", "from", "global", "if", "import", "in",
  "is", "lambda", "nonlocal", "not", "or", "pass", "raise", "return", "try", "while", "with", "yield"].map
    String.toList

/-- `fs` is `ns` with clashes resolved in favour of the earlier entry: every entry is different from all
earlier ones, and it is the first in the sequence `n, next n, next (next n), ...` that is not taken by an
earlier one. -/
def Settled (ns fs : List Name) : Prop :=
  fs.length = ns.length ∧ ∀ (i : Nat) (n f : Name), ns[i]? = some n → fs[i]? = some f →
    f ∉ fs.take i ∧ ∃ k, f = nextName^[k] n ∧ ∀ j, j < k → nextName^[j] n ∈ fs.take i

/-- The names of the parameters, in order. -/
def Fam.names (s : Fam) : List Name := s.kids.map s.name

/-- A name that is accepted by `adjust_name_for_printing` and has no line break. -/
def Good (n : Name) : Prop := (adjust n).isSome = true ∧ '\n' ∉ n

/-- Attributes added by the library are parameters, stored under their printed name. -/
def Fam.Sound (s : Fam) : Prop :=
  ∀ n z, s.attrs n = some z → z ∈ s.kids ∧ adjust (s.name z) = some n

/-- There is an attribute under the printed name of every parameter. -/
def Fam.Complete (s : Fam) : Prop :=
  ∀ x ∈ s.kids, ∀ n, adjust (s.name x) = some n → s.own n = true ∨ (s.attrs n).isSome = true

/-- Histories of one `Parameterized` that is the root of an initialised hierarchy. Every call is made with
the recursion limit it needs or more (else it raises `RecursionError`). -/
inductive Reach : Fam → Prop
  | empty (name : Id → Name) (own : Name → Bool) : Reach ⟨[], name, fun _ => none, own⟩
  | link {s s' : Fam} {n pos : Nat} {x : Id} : Reach s → x ∉ s.kids → Good (s.name x) →
      s.link n x pos true = .ok s' → Reach s'
  | unlink {s s' : Fam} {n : Nat} {x : Id} : Reach s → x ∈ s.kids → s.unlink n x = .ok s' → Reach s'
  | rename {s s' : Fam} {n : Nat} {x : Id} {new : Name} : Reach s → x ∈ s.kids → Good new →
      s.rename n x new = .ok s' → Reach s'
  | renameOutside {s : Fam} {x : Id} {new : Name} : Reach s → x ∉ s.kids →
      Reach { s with name := upd s.name x new }

end Paramz.Names
