import Verif.Spec.Web
/-
What the pages that describe the server promise, written down independently of the code that writes them: the Prometheus text
format, the script with the word lists, and the counters.
-/
namespace Noodle.Spec
set_option autoImplicit false

/-! ### The Prometheus text format -/

/-- A sample: the name of the metric, the value of its label `wordlist`, if it has one, and its value. -/
structure Sample where
  name : List Char
  label : Option (List Char)
  value : Nat
  deriving DecidableEq

/-- The text of the value of a label, and the value: `"`, `\` and the end of line are escaped. -/
inductive LabelText : List Char → List Char → Prop
  | nil : LabelText [] []
  | raw {c : Char} {e d : List Char} : c ≠ '"' → c ≠ '\\' → c ≠ '\n' → LabelText e d → LabelText (c :: e) (c :: d)
  | quote {e d : List Char} : LabelText e d → LabelText ('\\' :: '"' :: e) ('"' :: d)
  | backslash {e d : List Char} : LabelText e d → LabelText ('\\' :: '\\' :: e) ('\\' :: d)
  | newline {e d : List Char} : LabelText e d → LabelText ('\\' :: 'n' :: e) ('\n' :: d)

/-- The name of a metric. -/
def MetricName (n : List Char) : Prop :=
  (∀ c ∈ n, c.isAlphanum = true ∨ c = '_' ∨ c = ':') ∧ ∃ c t, n = c :: t ∧ c.isDigit = false

/-- The line of a sample. -/
inductive SampleLine : List Char → Sample → Prop
  | plain {n ds : List Char} {v : Nat} : MetricName n → Decimal ds v → SampleLine (n ++ " ".toList ++ ds) ⟨n, none, v⟩
  | labelled {n e d ds : List Char} {v : Nat} : MetricName n → LabelText e d → Decimal ds v →
      SampleLine (n ++ "{wordlist=\"".toList ++ e ++ "\"} ".toList ++ ds) ⟨n, some d, v⟩

/-- The text of some samples: blank lines, comments and lines of samples. -/
inductive Exposition : List Char → List Sample → Prop
  | nil : Exposition [] []
  | blank {t : List Char} {ss : List Sample} : Exposition t ss → Exposition ('\n' :: t) ss
  | comment {l t : List Char} {ss : List Sample} : '\n' ∉ l → Exposition t ss → Exposition ('#' :: l ++ '\n' :: t) ss
  | sample {l t : List Char} {s : Sample} {ss : List Sample} : SampleLine l s → Exposition t ss →
      Exposition (l ++ '\n' :: t) (s :: ss)

/-! ### The script with the word lists -/

/-- Lines that add a word list (name and size) each. -/
inductive PushLines : List Char → List (List Char × Nat) → Prop
  | nil : PushLines [] []
  | cons {e name ds t : List Char} {n : Nat} {r : List (List Char × Nat)} : JsonChars e name → Decimal ds n →
      PushLines t r →
      PushLines ("window.WORDLISTS.push({\"name\": \"".toList ++ e ++ "\", \"len\": ".toList ++ ds ++ "});\n".toList ++ t)
        ((name, n) :: r)

/-- The script: an empty list, and what is added to it. -/
def ListsScript (text : List Char) (r : List (List Char × Nat)) : Prop :=
  ∃ t, text = "window.WORDLISTS = [];\n".toList ++ t ∧ PushLines t r

/-! ### The counters -/

/-- The value of the counter of all queries after some updates. -/
def counted (l : List Act) : Nat := l.count .count

/-- The updates of the requests, each with the number of its request. -/
def numbered (rs : List (List Act)) : List (List (Nat × Act)) := rs.zipIdx.map fun r => r.1.map fun a => (r.2, a)

/-- After the updates `p`, request `i` is in progress: it has begun, and has not announced its end. -/
def InProgress (p : List (Nat × Act)) (i : Nat) : Prop := (i, Act.start) ∈ p ∧ (i, Act.stop) ∉ p

instance (p : List (Nat × Act)) (i : Nat) : Decidable (InProgress p i) := by unfold InProgress; infer_instance

end Noodle.Spec
