import Verif.Proofs.Derive
/-
The second half of the parser never panics on a tree the grammar allows, unless a numeral is too large.
-/
namespace Noodle
open List Peg
set_option autoImplicit false

/-- No part of the text is a numeral of `2^64` or more. -/
def NoHuge (l : List Char) : Prop := ∀ d, d <:+: l → d.all Char.isDigit = true → decimal d < 2 ^ 64

theorem NoHuge.infix {l m : List Char} (h : NoHuge l) (hm : m <:+: l) : NoHuge m := fun d hd => h d (hd.trans hm)

/-- Rules a term may leave. -/
def isTerm : Rule → Bool
  | .cls | .dot | .alternatives | .sequence | .anagram | .superanagram | .subanagram | .transadd | .transdelete
  | .substring | .subset | .superset | .number | .character => true
  | _ => false

/-- Rules a repetition may leave. -/
def isRepeat : Rule → Bool
  | .repeatOptional | .repeatAny | .repeatOneormore | .repeatAtmost | .repeatExact | .repeatAtleast | .repeatRange => true
  | _ => false

/-- One lawful node, of a text that is part of the given text. -/
def Sole (f : Rule → Bool) (u : List Char) (ps : List Pair) : Prop :=
  ∃ p, ps = [p] ∧ f p.rule = true ∧ Lawful p ∧ p.text <:+: u

theorem sole_node {at' : Bool} {r : Rule} {u : List Char} {ps : List Pair} (h : Derives at' (Peg.node r) u ps) :
    Sole (· = r) u ps := by
  have hl := derives_nodes h
  obtain ⟨qs, rfl, _⟩ := derives_node h
  exact ⟨_, rfl, by simp [Pair.rule], (hl _ (by simp)).1, (hl _ (by simp)).2⟩

theorem Sole.mono {f g : Rule → Bool} {u : List Char} {ps : List Pair} (h : Sole f u ps) (hg : ∀ r, f r = true → g r = true) :
    Sole g u ps := by
  obtain ⟨p, h1, h2, h3⟩ := h
  exact ⟨p, h1, hg _ h2, h3⟩

theorem Sole.more {f : Rule → Bool} {u v : List Char} {ps : List Pair} (h : Sole f u ps) (hv : u <:+: v) : Sole f v ps := by
  obtain ⟨p, h1, h2, h3, h4⟩ := h
  exact ⟨p, h1, h2, h3, h4.trans hv⟩

theorem sole_as {at' : Bool} {r : Rule} {f : Rule → Bool} {u : List Char} {ps : List Pair}
    (h : Derives at' (Peg.node r) u ps) (hf : f r = true) : Sole f u ps :=
  (sole_node h).mono fun r' hr' => by
    have : r' = r := by simpa using hr'
    subst this; exact hf

theorem sole_subexpression {at' : Bool} {u : List Char} {ps : List Pair} (h : Derives at' (.ref .subexpression) u ps) :
    Sole (fun r => r = .sequence ∨ r = .alternatives) u ps := by
  have h := derives_silent h (by intro r hr; cases hr)
  simp only [grammar] at h
  rcases derives_alt h with h | h
  · exact sole_as h (by simp)
  · exact sole_as h (by simp)

theorem sole_term {at' : Bool} {u : List Char} {ps : List Pair} (h : Derives at' (.ref .term) u ps) : Sole isTerm u ps := by
  have h := derives_silent h (by intro r hr; cases hr)
  simp only [grammar] at h
  obtain ⟨e, he, h⟩ := derives_choices h
  simp only [List.mem_cons, List.not_mem_nil, or_false] at he
  rcases he with rfl | rfl | rfl | rfl | rfl | rfl | rfl | rfl | rfl | rfl | rfl | rfl | rfl
  case inr.inr.inl =>
    have h := derives_silent h (by intro r hr; cases hr)
    simp only [grammar, seqs] at h
    obtain ⟨x, w, y, qs, rs, _, rfl, rfl, h1, h2⟩ := derives_seq h
    obtain ⟨x', w', y', qs', rs', _, rfl, rfl, h3, h4⟩ := derives_seq h2
    rw [(derives_lit h1).2, (derives_lit h4).2]
    simp only [List.nil_append, List.append_nil]
    refine ((sole_subexpression h3).mono ?_).more ⟨x ++ w, w' ++ y', by simp⟩
    intro r hr
    simp at hr
    rcases hr with rfl | rfl <;> rfl
  all_goals exact sole_as h rfl

theorem sole_repeat {at' : Bool} {u : List Char} {ps : List Pair} (h : Derives at' (.ref .repeat) u ps) :
    Sole isRepeat u ps := by
  have h := derives_silent h (by intro r hr; cases hr)
  simp only [grammar] at h
  obtain ⟨e, he, h⟩ := derives_choices h
  simp only [List.mem_cons, List.not_mem_nil, or_false] at he
  rcases he with rfl | rfl | rfl | rfl | rfl | rfl | rfl
  all_goals exact sole_as h rfl

theorem sole_all {f : Rule → Bool} {u : List Char} {ps : List Pair} (h : Sole f u ps) : ∀ p ∈ ps, f p.rule = true := by
  obtain ⟨p, rfl, h, _⟩ := h
  simpa using h

/-! ### Numbers -/

/-- A number node is a numeral. -/
theorem number_text {p : Pair} (h : Lawful p) (hr : p.rule = .number) : p.text ≠ [] ∧ p.text.all Char.isDigit = true := by
  rcases h with rfl | ⟨at', qs, _, h⟩
  · cases hr
  rw [hr] at h
  simp only [grammar, Bool.or_true] at h
  exact derives_digits h

theorem parseUsize_some {l : List Char} (h1 : l ≠ []) (h2 : l.all Char.isDigit = true) (h3 : NoHuge l) :
    parseUsize l = some (decimal l) := by
  have : decimal l < 2 ^ 64 := h3 l List.infix_rfl h2
  unfold parseUsize
  rw [if_pos]
  simp only [Bool.and_eq_true, decide_eq_true_eq]
  refine ⟨⟨?_, h2⟩, this⟩
  cases l with
  | nil => exact absurd rfl h1
  | cons _ _ => rfl

theorem parseNumbers_sole {at' : Bool} {u : List Char} {ps : List Pair} (h : Derives at' (Peg.node .number) u ps)
    (hu : NoHuge u) : ∃ n, parseNumbers ps = [n] := by
  obtain ⟨p, rfl, hr, hl, ht⟩ := sole_node h
  have hr : p.rule = .number := by simpa using hr
  obtain ⟨h1, h2⟩ := number_text hl hr
  exact ⟨decimal p.text, by simp [parseNumbers, hr, parseUsize_some h1 h2 (hu.infix ht)]⟩

theorem parseNumbers_append (ps qs : List Pair) : parseNumbers (ps ++ qs) = parseNumbers ps ++ parseNumbers qs := by
  simp [parseNumbers]

/-! ### Classes -/

theorem character_text {p : Pair} (h : Lawful p) (hr : p.rule = .character) : ∃ c, p.text = [c] := by
  rcases h with rfl | ⟨at', qs, _, h⟩
  · cases hr
  rw [hr] at h
  simp only [grammar] at h
  obtain ⟨e, he, h⟩ := derives_choices h
  simp only [List.mem_cons, List.not_mem_nil, or_false] at he
  rcases he with rfl | rfl | rfl | rfl
  · obtain ⟨c, _, hc, _⟩ := derives_chr h
    exact ⟨c, hc⟩
  · obtain ⟨qs', _, h⟩ := derives_node h
    simp only [grammar] at h
    exact ⟨'.', (derives_lit h).1⟩
  · exact ⟨'\'', (derives_lit h).1⟩
  · exact ⟨'_', (derives_lit h).1⟩

theorem letterRange_text {p : Pair} (h : Lawful p) (hr : p.rule = .letterRange) : 3 ≤ p.text.length := by
  rcases h with rfl | ⟨at', qs, _, h⟩
  · cases hr
  rw [hr] at h
  simp only [grammar, seqs] at h
  obtain ⟨x, w, y, _, _, _, hu, _, h1, h2⟩ := derives_seq h
  obtain ⟨x', w', y', _, _, _, rfl, _, h3, h4⟩ := derives_seq h2
  obtain ⟨c, _, rfl, _⟩ := derives_chr h1
  obtain ⟨rfl, _⟩ := derives_lit h3
  obtain ⟨d, _, rfl, _⟩ := derives_chr h4
  rw [hu]
  simp
  omega

theorem classItem_ok (st : Bool × CharSet) {p : Pair} (h : Lawful p)
    (hr : (p.rule = .letterRange ∨ p.rule = .character)) : ∃ st', classItem st p = .ok st' := by
  unfold classItem
  rcases hr with hr | hr
  · rw [hr]
    have := letterRange_text h hr
    rw [List.getElem?_eq_getElem (by omega), List.getElem?_eq_getElem (by omega)]
    exact ⟨_, rfl⟩
  · rw [hr]
    obtain ⟨c, hc⟩ := character_text h hr
    rw [hc]
    exact ⟨_, rfl⟩

theorem classItems_ok : ∀ (ps : List Pair) (st : Bool × CharSet),
    (∀ p ∈ ps, Lawful p ∧ (p.rule = .letterRange ∨ p.rule = .character)) → ∃ st', ps.foldlM classItem st = .ok st'
  | [], st, _ => ⟨st, rfl⟩
  | p :: ps, st, h => by
    obtain ⟨st1, h1⟩ := classItem_ok st (h p (by simp)).1 (h p (by simp)).2
    obtain ⟨st2, h2⟩ := classItems_ok ps st1 fun q hq => h q (by simp [hq])
    exact ⟨st2, by rw [List.foldlM_cons, h1]; exact h2⟩

theorem parseClass_ok {at' : Bool} {u : List Char} {qs : List Pair} (h : Derives at' (grammar (.vis .cls)).2 u qs) :
    ∃ c, parseClass qs = .ok c := by
  have hl := derives_nodes h
  simp only [grammar, seqs] at h
  obtain ⟨x, w, y, qs1, rs, _, rfl, rfl, h1, h2⟩ := derives_seq h
  obtain ⟨x', w', y', qs2, rs', _, rfl, rfl, h3, h4⟩ := derives_seq h2
  obtain ⟨x2, w2, y2, qs3, rs2, _, rfl, rfl, h5, h6⟩ := derives_seq h4
  obtain ⟨rfl, rfl⟩ := derives_lit h1
  obtain ⟨rfl, rfl⟩ := derives_lit h6
  simp only [List.nil_append, List.append_nil] at hl ⊢
  have hr : ∀ p ∈ qs3, p.rule = .letterRange ∨ p.rule = .character := by
    refine derives_plus ?_ h5
    intro u ps h
    rcases derives_alt h with h | h
    · intro p hp
      exact Or.inl (by simpa using sole_all (sole_node h) p hp)
    · intro p hp
      exact Or.inr (by simpa using sole_all (sole_node h) p hp)
  have hall : ∀ st, ∃ st', qs3.foldlM classItem st = .ok st' := fun st =>
    classItems_ok qs3 st fun p hp => ⟨(hl p (by simp [hp])).1, hr p hp⟩
  unfold parseClass
  cases h3 with
  | optN =>
    rw [List.nil_append]
    obtain ⟨st', h'⟩ := hall (false, CharSet.empty)
    cases qs3 with
    | nil => simp only [h']; exact ⟨_, rfl⟩
    | cons p ps =>
      have hp : ¬ p.rule = .invert := by
        rcases hr p (by simp) with h | h <;> rw [h] <;> simp
      simp only [if_neg hp, h']
      exact ⟨_, rfl⟩
  | optS h3 =>
    obtain ⟨p, rfl, hp, _⟩ := sole_node h3
    have hp : p.rule = .invert := by simpa using hp
    simp only [List.singleton_append, hp, if_true]
    obtain ⟨st', h'⟩ := hall (true, CharSet.empty)
    rw [h']
    exact ⟨_, rfl⟩

/-! ### Anagrams -/

theorem anagram_plain {at' : Bool} {u : List Char} {qs : List Pair} {s : String}
    (h : Derives at' (seqs [lit "<", Peg.node .anagramBody, lit s]) u qs) : ∃ b, parseAnagram qs = .ok (b, none) := by
  simp only [seqs] at h
  obtain ⟨x, w, y, qs1, rs, _, rfl, rfl, h1, h2⟩ := derives_seq h
  obtain ⟨x', w', y', qs2, rs', _, rfl, rfl, h3, h4⟩ := derives_seq h2
  obtain ⟨rfl, rfl⟩ := derives_lit h1
  obtain ⟨rfl, rfl⟩ := derives_lit h4
  obtain ⟨p, rfl, hp, _⟩ := sole_node h3
  have hp : p.rule = .anagramBody := by simpa using hp
  exact ⟨_, by simp [parseAnagram, hp, parseNumbers]; rfl⟩

theorem anagram_number {at' : Bool} {u : List Char} {qs : List Pair} {s : String} (hu : NoHuge u)
    (h : Derives at' (seqs [lit "<", Peg.node .anagramBody, lit s, Peg.node .number, lit ">"]) u qs) :
    ∃ b n, parseAnagram qs = .ok (b, some n) := by
  simp only [seqs] at h
  obtain ⟨x, w, y, qs1, rs, _, rfl, rfl, h1, h2⟩ := derives_seq h
  obtain ⟨x', w', y', qs2, rs', _, rfl, rfl, h3, h4⟩ := derives_seq h2
  obtain ⟨x2, w2, y2, qs3, rs2, _, rfl, rfl, h5, h6⟩ := derives_seq h4
  obtain ⟨x3, w3, y3, qs4, rs3, _, rfl, rfl, h7, h8⟩ := derives_seq h6
  obtain ⟨rfl, rfl⟩ := derives_lit h1
  obtain ⟨rfl, rfl⟩ := derives_lit h5
  obtain ⟨rfl, rfl⟩ := derives_lit h8
  obtain ⟨p, rfl, hp, _⟩ := sole_node h3
  have hp : p.rule = .anagramBody := by simpa using hp
  obtain ⟨n, hn⟩ := parseNumbers_sole h7 (hu.infix ⟨"<".toList ++ w ++ (x' ++ w' ++ (s.toList ++ w2)), w3 ++ ">".toList, by
    simp only [List.append_assoc]⟩)
  exact ⟨_, n, by simp [parseAnagram, hp, hn]; rfl⟩

/-! ### Terms -/

theorem sizeOf_inner {p q : Pair} (h : q ∈ p.inner) : sizeOf q < sizeOf p := by
  cases p with
  | mk r t i =>
    have := List.sizeOf_lt_of_mem h
    simp only [Pair.inner] at this
    simp
    omega

theorem parseTerms_ok : ∀ (ps : List Pair), (∀ p ∈ ps, ∃ a, parseTerm p = .ok (some a)) → ∃ l, parseTerms ps = .ok l
  | [], _ => ⟨[], rfl⟩
  | p :: ps, h => by
    obtain ⟨a, ha⟩ := h p (by simp)
    obtain ⟨l, hl⟩ := parseTerms_ok ps fun q hq => h q (by simp [hq])
    exact ⟨a :: l, by simp [parseTerms, ha, hl, Except.bind, Except.map]⟩

theorem parseRepeat_ok {rule : Rule} {p : Pair} {ps : List Pair} {b : Nat × Option Nat} (hp : ∃ a, parseTerm p = .ok (some a))
    (hb : repeatBounds rule (parseNumbers ps) = .ok b) : ∃ a, parseRepeat rule (p :: ps) = .ok (some a) := by
  obtain ⟨a, ha⟩ := hp
  exact ⟨_, by simp only [parseRepeat, ha, Except.bind, hb, Except.map]; rfl⟩

/-- Every lawful term or repetition has a meaning. -/
theorem parseTerm_total : ∀ (n : Nat) (p : Pair), sizeOf p < n → Lawful p → NoHuge p.text →
    (isTerm p.rule = true ∨ isRepeat p.rule = true) → ∃ a, parseTerm p = .ok (some a) := by
  intro n
  induction n with
  | zero => intro p h; omega
  | succ n ih =>
    intro p hsz hl hu hr
    have hin : ∀ q ∈ p.inner, (isTerm q.rule = true ∨ isRepeat q.rule = true) → ∃ a, parseTerm q = .ok (some a) := by
      intro q hq hqr
      have := sizeOf_inner hq
      obtain ⟨h1, h2⟩ := hl.inner hq
      exact ih q (by omega) h1 (hu.infix h2) hqr
    have hterms : (∀ q ∈ p.inner, isTerm q.rule = true ∨ isRepeat q.rule = true) → ∃ l, parseTerms p.inner = .ok l :=
      fun h => parseTerms_ok _ fun q hq => hin q hq (h q hq)
    rcases hl with rfl | ⟨at', qs, hqs, hd⟩
    · rcases hr with hr | hr <;> cases hr
    have hnum := fun hr => number_text (p := p) (Or.inr ⟨at', qs, hqs, hd⟩) hr
    have hchr := fun hr => character_text (p := p) (Or.inr ⟨at', qs, hqs, hd⟩) hr
    obtain ⟨rule, u, inner⟩ := p
    simp only [Pair.rule, Pair.text, Pair.inner] at *
    have hterm : ∀ {at' : Bool} {u : List Char} {ps : List Pair}, Derives at' (.ref .term) u ps →
        ∀ q ∈ ps, isTerm q.rule = true ∨ isRepeat q.rule = true := fun h q hq => Or.inl (sole_all (sole_term h) q hq)
    cases rule <;> simp only [isTerm, isRepeat, Bool.false_eq_true, or_self] at hr
    case number =>
      obtain ⟨h1, h2⟩ := hnum rfl
      simp only [parseTerm, parseUsize_some h1 h2 hu]
      exact ⟨_, rfl⟩
    case character =>
      obtain ⟨c, rfl⟩ := hchr rfl
      exact ⟨_, by simp only [parseTerm, List.head?_cons]; rfl⟩
    case dot => exact ⟨_, by simp only [parseTerm]; rfl⟩
    case cls =>
      obtain ⟨c, hc⟩ := parseClass_ok hd
      have : inner = qs := hqs
      rw [this]
      exact ⟨_, by simp only [parseTerm, hc, Except.map]; rfl⟩
    case sequence =>
      have : inner = qs := hqs
      subst this
      have hall : ∀ q ∈ inner, isTerm q.rule = true ∨ isRepeat q.rule = true := by
        refine derives_plus ?_ hd
        intro u ps h
        rcases derives_alt h with h | h
        · exact fun q hq => Or.inr (sole_all (sole_repeat h) q hq)
        · exact hterm h
      obtain ⟨l, hl⟩ := hterms hall
      exact ⟨_, by simp only [parseTerm, hl, Except.map]; rfl⟩
    case alternatives =>
      have : inner = qs := hqs
      subst this
      have hseq : ∀ {at' : Bool} {u : List Char} {ps : List Pair}, Derives at' (Peg.node .sequence) u ps →
          ∀ q ∈ ps, isTerm q.rule = true ∨ isRepeat q.rule = true := by
        intro at' u ps h q hq
        have : q.rule = .sequence := by simpa using sole_all (sole_node h) q hq
        rw [this]; exact Or.inl rfl
      have hall : ∀ q ∈ inner, isTerm q.rule = true ∨ isRepeat q.rule = true := by
        simp only [grammar] at hd
        obtain ⟨_, _, _, _, _, _, rfl, rfl, h1, h2⟩ := derives_seq hd
        intro q hq
        rcases List.mem_append.1 hq with hq | hq
        · exact hseq h1 q hq
        · refine derives_plus (P := fun q => isTerm q.rule = true ∨ isRepeat q.rule = true) ?_ h2 q hq
          intro u ps h
          obtain ⟨_, _, _, _, _, _, rfl, rfl, h3, h4⟩ := derives_seq h
          rw [(derives_lit h3).2, List.nil_append]
          exact hseq h4
      obtain ⟨l, hl⟩ := hterms hall
      exact ⟨_, by simp only [parseTerm, hl, Except.map]; rfl⟩
    case substring | subset | superset =>
      have : inner = qs := hqs
      subst this
      have hall : ∀ q ∈ inner, isTerm q.rule = true ∨ isRepeat q.rule = true := by
        simp only [grammar, seqs] at hd
        obtain ⟨_, _, _, _, _, _, rfl, rfl, h1, h2⟩ := derives_seq hd
        obtain ⟨_, _, _, _, _, _, rfl, rfl, h3, h4⟩ := derives_seq h2
        rw [(derives_lit h1).2, (derives_lit h4).2, List.nil_append, List.append_nil]
        exact derives_plus (fun _ _ h => hterm h) h3
      obtain ⟨l, hl⟩ := hterms hall
      exact ⟨_, by simp only [parseTerm, hl, Except.map]; rfl⟩
    case anagram | subanagram | superanagram =>
      have : inner = qs := hqs
      subst this
      simp only [grammar] at hd
      obtain ⟨b, hb⟩ := anagram_plain hd
      exact ⟨_, by simp only [parseTerm, parseAnagramTerm, hb, Except.bind, Except.map, Option.isNone_none, if_true]; rfl⟩
    case transadd | transdelete =>
      have : inner = qs := hqs
      subst this
      simp only [grammar] at hd
      obtain ⟨b, n, hb⟩ := anagram_number hu hd
      exact ⟨_, by simp only [parseTerm, parseAnagramTerm, hb, Except.bind, Except.map]; rfl⟩
    case repeatOptional | repeatAny | repeatOneormore =>
      have : inner = qs := hqs
      subst this
      simp only [grammar] at hd
      obtain ⟨_, _, _, _, _, _, rfl, rfl, h1, h2⟩ := derives_seq hd
      obtain ⟨p, rfl, hp, _⟩ := sole_term h1
      rw [(derives_lit h2).2] at hin ⊢
      simp only [parseTerm]
      exact parseRepeat_ok (hin p (by simp) (Or.inl hp)) rfl
    case repeatAtmost | repeatExact | repeatAtleast =>
      have : inner = qs := hqs
      subst this
      simp only [grammar, seqs] at hd
      obtain ⟨x, w, y, _, _, _, rfl, rfl, h1, h2⟩ := derives_seq hd
      obtain ⟨x2, w2, y2, _, _, _, rfl, rfl, h3, h4⟩ := derives_seq h2
      obtain ⟨x3, w3, y3, _, _, _, rfl, rfl, h5, h6⟩ := derives_seq h4
      obtain ⟨p, rfl, hp, _⟩ := sole_term h1
      rw [(derives_lit h3).2, (derives_lit h6).2, List.nil_append, List.append_nil] at hin ⊢
      obtain ⟨n, hn⟩ := parseNumbers_sole h5 (hu.infix ⟨x ++ w ++ (x2 ++ w2), w3 ++ y3, by simp only [List.append_assoc]⟩)
      rw [List.singleton_append] at hin ⊢
      simp only [parseTerm]
      exact parseRepeat_ok (hin p (by simp) (Or.inl hp)) (by simp only [repeatBounds, hn, List.getElem?_cons_zero]; rfl)
    case repeatRange =>
      have : inner = qs := hqs
      subst this
      simp only [grammar, seqs] at hd
      obtain ⟨x, w, y, _, _, _, rfl, rfl, h1, h2⟩ := derives_seq hd
      obtain ⟨x2, w2, y2, _, _, _, rfl, rfl, h3, h4⟩ := derives_seq h2
      obtain ⟨x3, w3, y3, _, _, _, rfl, rfl, h5, h6⟩ := derives_seq h4
      obtain ⟨x4, w4, y4, _, _, _, rfl, rfl, h7, h8⟩ := derives_seq h6
      obtain ⟨x5, w5, y5, _, _, _, rfl, rfl, h9, h10⟩ := derives_seq h8
      obtain ⟨p, rfl, hp, _⟩ := sole_term h1
      rw [(derives_lit h3).2, (derives_lit h7).2, (derives_lit h10).2, List.nil_append, List.nil_append,
        List.append_nil] at hin ⊢
      obtain ⟨n, hn⟩ := parseNumbers_sole h5
        (hu.infix ⟨x ++ w ++ (x2 ++ w2), w3 ++ (x4 ++ w4 ++ (x5 ++ w5 ++ y5)), by simp only [List.append_assoc]⟩)
      obtain ⟨m, hm⟩ := parseNumbers_sole h9
        (hu.infix ⟨x ++ w ++ (x2 ++ w2 ++ (x3 ++ w3 ++ (x4 ++ w4))), w5 ++ y5, by simp only [List.append_assoc]⟩)
      rw [List.singleton_append] at hin ⊢
      simp only [parseTerm]
      refine parseRepeat_ok (b := (n, some m)) (hin p (by simp) (Or.inl hp)) ?_
      rw [parseNumbers_append, hn, hm]
      rfl

/-! ### Expressions and lines -/

theorem parseOptions_ok : ∀ (ps : List Pair) (o : ExprOptions),
    (∀ p ∈ ps, Lawful p ∧ NoHuge p.text ∧ (p.rule = .optionWordBoundaries ∨ p.rule = .optionPunctuation ∨
      p.rule = .optionFuzz ∨ p.rule = .eoi)) → ∃ o', ps.foldlM parseOption o = .ok o'
  | [], o, _ => ⟨o, rfl⟩
  | p :: ps, o, h => by
    obtain ⟨hl, hu', hr⟩ := h p (by simp)
    have hp : ∃ o1, parseOption o p = .ok o1 := by
      unfold parseOption
      rcases hr with hr | hr | hr | hr
      · rw [hr]; exact ⟨_, rfl⟩
      · rw [hr]; exact ⟨_, rfl⟩
      · rw [hr]
        rcases hl with rfl | ⟨at', qs, hqs, hd⟩
        · cases hr
        rw [hr] at hqs hd
        simp only [grammar] at hd
        have hqs : p.inner = qs := hqs
        obtain ⟨x, w, y, _, _, _, hx, rfl, h1, h2⟩ := derives_seq hd
        rw [(derives_lit h1).2, List.nil_append] at hqs
        obtain ⟨n, hn⟩ := parseNumbers_sole h2 (hu'.infix ⟨x ++ w, [], by rw [hx]; simp⟩)
        rw [hqs, hn]
        exact ⟨_, rfl⟩
      · rw [hr]; exact ⟨_, rfl⟩
    obtain ⟨o1, h1⟩ := hp
    obtain ⟨o2, h2⟩ := parseOptions_ok ps o1 fun q hq => h q (by simp [hq])
    exact ⟨o2, by rw [List.foldlM_cons, h1]; exact h2⟩

theorem parseExpression_total {p : Pair} (hl : Lawful p) (hr : p.rule = .expression) (hu : NoHuge p.text) :
    ∃ e, parseExpression p = .ok e := by
  have hin := fun q (hq : q ∈ p.inner) => hl.inner hq
  rcases hl with rfl | ⟨at', qs, hqs, hd⟩
  · cases hr
  rw [hr] at hqs hd
  have hqs : p.inner = qs := hqs
  simp only [grammar, seqs] at hd
  obtain ⟨x, w, y, _, _, _, hx, rfl, h1, h2⟩ := derives_seq hd
  obtain ⟨x2, w2, y2, _, _, _, rfl, rfl, h3, h4⟩ := derives_seq h2
  obtain ⟨x3, w3, y3, ops, _, _, rfl, rfl, h5, h6⟩ := derives_seq h4
  obtain ⟨s, rfl, hs, hsl, hst⟩ := sole_subexpression h3
  rw [(derives_soi h1).2, (derives_eoi h6).2, List.nil_append] at hqs
  have hs' : s.rule = .sequence ∨ s.rule = .alternatives := by simpa using hs
  have hsu : NoHuge s.text := hu.infix (hst.trans ⟨x ++ w, w2 ++ (x3 ++ w3 ++ y3), by rw [hx]; simp⟩)
  obtain ⟨a, ha⟩ := parseTerm_total _ s (Nat.lt_succ_self _) hsl hsu
    (by rcases hs' with h | h <;> rw [h] <;> exact Or.inl rfl)
  have hops : ∀ p ∈ ops, p.rule = .optionWordBoundaries ∨ p.rule = .optionPunctuation ∨ p.rule = .optionFuzz := by
    refine derives_star ?_ h5
    intro u ps h
    have h := derives_silent h (by intro r hr; cases hr)
    simp only [grammar] at h
    obtain ⟨e, he, h⟩ := derives_choices h
    simp only [List.mem_cons, List.not_mem_nil, or_false] at he
    rcases he with rfl | rfl | rfl
    · exact fun p hp => Or.inl (by simpa using sole_all (sole_node h) p hp)
    · exact fun p hp => Or.inr (Or.inl (by simpa using sole_all (sole_node h) p hp))
    · exact fun p hp => Or.inr (Or.inr (by simpa using sole_all (sole_node h) p hp))
  obtain ⟨o, ho⟩ := parseOptions_ok (ops ++ [.mk .eoi [] []]) {} (by
    intro q hq
    have hq' := hin q (by rw [hqs]; simpa using Or.inr hq)
    refine ⟨hq'.1, hu.infix hq'.2, ?_⟩
    rcases List.mem_append.1 hq with hq | hq
    · rcases hops q hq with h | h | h
      · exact Or.inl h
      · exact Or.inr (Or.inl h)
      · exact Or.inr (Or.inr (Or.inl h))
    · rw [List.mem_singleton] at hq
      subst hq
      exact Or.inr (Or.inr (Or.inr rfl)))
  unfold parseExpression
  rw [if_neg (by simp [hr]), hqs]
  simp only [List.singleton_append]
  rw [if_pos hs', ha]
  simp only [Except.bind, parseOptions, ho, Except.map]
  exact ⟨_, rfl⟩

/-- The first node of a line is a lawful expression, or a macro with a name and a value, or one that does not panic. -/
theorem lineNode_total {p : Pair} {u : List Char} (h : Derives false (.ref (.vis .query)) u [p]) (hu : NoHuge u)
    {q : Pair} {qs : List Pair} (hq : p.inner = q :: qs) (st : ParseState) : ∃ st', lineNode st q = .ok st' := by
  obtain ⟨ps, hp, hd⟩ := derives_node (r := .query) h
  rw [List.cons.injEq] at hp
  have hp := hp.1
  subst hp
  have hq : ps = q :: qs := hq
  subst hq
  have hqs := derives_nodes hd q (by simp)
  simp only [grammar] at hd
  obtain ⟨e, he, hd⟩ := derives_choices hd
  simp only [List.mem_cons, List.not_mem_nil, or_false] at he
  rcases he with rfl | rfl | rfl | rfl
  · have hd := derives_silent hd (by intro r hr; cases hr)
    simp only [grammar, seqs] at hd
    obtain ⟨x, w, y, _, _, _, rfl, hps, h1, h2⟩ := derives_seq hd
    obtain ⟨x2, w2, y2, _, _, _, rfl, rfl, h3, h4⟩ := derives_seq h2
    rw [(derives_soi h1).2, List.nil_append] at hps
    obtain ⟨e, he, h3⟩ := derives_choices h3
    simp only [List.mem_cons, List.not_mem_nil, or_false] at he
    unfold lineNode
    rcases he with rfl | rfl | rfl | rfl | rfl
    all_goals
      obtain ⟨q', rfl, hr, _⟩ := sole_node h3
      rw [List.singleton_append, List.cons.injEq] at hps
      rw [← hps.1] at hr
      simp only [decide_eq_true_eq] at hr
      rw [hr]
      exact ⟨_, rfl⟩
  · obtain ⟨q', h1, hr, _⟩ := sole_node hd
    rw [List.cons.injEq] at h1
    rw [← h1.1] at hr
    have hr : q.rule = .macroDefine := by simpa using hr
    rcases hqs.1 with rfl | ⟨at', qs', hqs', hd'⟩
    · cases hr
    rw [hr] at hqs' hd'
    have hqs' : q.inner = qs' := hqs'
    simp only [grammar, seqs] at hd'
    obtain ⟨x, w, y, _, _, _, _, rfl, g1, h2⟩ := derives_seq hd'
    obtain ⟨x2, w2, y2, _, _, _, _, rfl, h3, h4⟩ := derives_seq h2
    obtain ⟨x3, w3, y3, _, _, _, _, rfl, h5, h6⟩ := derives_seq h4
    obtain ⟨x4, w4, y4, _, _, _, _, rfl, h7, h8⟩ := derives_seq h6
    obtain ⟨n, rfl, hn, _⟩ := sole_node h3
    obtain ⟨v, rfl, hv, _⟩ := sole_node h7
    have hn : n.rule = .macroName := by simpa using hn
    have hv : v.rule = .macroValue := by simpa using hv
    rw [(derives_soi g1).2, (derives_lit h5).2, (derives_eoi h8).2] at hqs'
    unfold lineNode
    rw [hr]
    simp [hqs', hn, hv]
  · obtain ⟨q', h1, hr, hl, ht⟩ := sole_node hd
    rw [List.cons.injEq] at h1
    have h1 := h1.1
    subst h1
    have hr : q.rule = .expression := by simpa using hr
    obtain ⟨e, he⟩ := parseExpression_total hl hr (hu.infix ht)
    unfold lineNode
    rw [hr, he]
    exact ⟨_, rfl⟩
  · have hd := derives_silent hd (by intro r hr; cases hr)
    simp only [grammar] at hd
    obtain ⟨x, w, y, _, _, _, rfl, hps, h1, h2⟩ := derives_seq hd
    rw [(derives_soi h1).2, (derives_eoi h2).2, List.nil_append, List.cons.injEq] at hps
    rw [hps.1]
    exact ⟨_, rfl⟩

/-- The name of a macro begins with a letter. -/
def Lettered (n : List Char) : Prop := ∃ c cs, n = c :: cs ∧ c.isAlpha = true

theorem Lettered.ne {n : List Char} (h : Lettered n) : n ≠ [] := by
  obtain ⟨c, cs, rfl, _⟩ := h
  simp

theorem macroName_text {p : Pair} (h : Lawful p) (hr : p.rule = .macroName) : Lettered p.text := by
  rcases h with rfl | ⟨at', qs, _, h⟩
  · cases hr
  rw [hr] at h
  simp only [grammar] at h
  obtain ⟨x, w, y, _, _, _, hu, _, h1, h2⟩ := derives_seq h
  obtain ⟨c, hc, rfl, _⟩ := derives_chr h1
  exact ⟨c, _, by rw [hu]; rfl, hc⟩

/-- What a line does to the macros: nothing, or it has an equality sign and defines one, with a name. -/
theorem lineNode_macros {p : Pair} {u : List Char} (h : Derives false (.ref (.vis .query)) u [p])
    {q : Pair} {qs : List Pair} (hq : p.inner = q :: qs) {st st' : ParseState} (hst : lineNode st q = .ok st') :
    st'.macros = st.macros ∨ '=' ∈ u ∧ ∃ n v, Lettered n ∧ st'.macros = insertMacro n v st.macros := by
  have hl := (derives_nodes h p (by simp)).1
  have hl := hl.inner (q := q) (by rw [hq]; simp)
  have hpu := (derives_nodes h p (by simp)).2
  unfold lineNode at hst
  split at hst
  case h_7 hr =>
    right
    have hin := fun q' (hq' : q' ∈ q.inner) => hl.1.inner hq'
    rcases hl.1 with rfl | ⟨at', qs', hqs', hd'⟩
    · cases hr
    rw [hr] at hqs' hd'
    have hqs' : q.inner = qs' := hqs'
    simp only [grammar, seqs] at hd'
    obtain ⟨x, w, y, _, _, _, hx, rfl, g1, h2⟩ := derives_seq hd'
    obtain ⟨x2, w2, y2, _, _, _, rfl, rfl, h3, h4⟩ := derives_seq h2
    obtain ⟨x3, w3, y3, _, _, _, rfl, rfl, h5, h6⟩ := derives_seq h4
    obtain ⟨x4, w4, y4, _, _, _, rfl, rfl, h7, h8⟩ := derives_seq h6
    obtain ⟨n, rfl, hn, hnl, _⟩ := sole_node h3
    obtain ⟨v, rfl, hv, _⟩ := sole_node h7
    have hn : n.rule = .macroName := by simpa using hn
    have hv : v.rule = .macroValue := by simpa using hv
    rw [(derives_soi g1).2, (derives_lit h5).2, (derives_eoi h8).2] at hqs'
    have he : '=' ∈ q.text := by
      rw [hx, (derives_lit h5).1]
      simp
    refine ⟨(hl.2.trans hpu).subset he, n.text, v.text, macroName_text hnl hn, ?_⟩
    simp [hqs', hn, hv] at hst
    rw [← hst]
  all_goals first
    | (left; cases hst; rfl)
    | (left; revert hst; generalize parseExpression q = r; cases r <;> simp [Except.map]; rintro rfl; rfl)

theorem insertMacro_names {P : List Char → Prop} {n v : List Char} (hn : P n) : ∀ {ms : List (List Char × List Char)},
    (∀ m ∈ ms, P m.1) → ∀ m ∈ insertMacro n v ms, P m.1
  | [], _ => by simpa [insertMacro] using hn
  | (a, b) :: ms, h => by
    unfold insertMacro
    split
    · intro m hm
      rcases List.mem_cons.1 hm with rfl | hm
      · exact h (a, b) (by simp)
      · exact h m (by simp [hm])
    · intro m hm
      rcases List.mem_cons.1 hm with rfl | hm
      · exact h _ (by simp)
      · exact insertMacro_names hn (fun m hm => h m (by simp [hm])) m hm

theorem parseLine_macros {U : Unicode} {st st' : ParseState} {i : Nat} {line : List Char}
    (h : parseLine U st i line = .ok st') : st'.macros = st.macros ∨
      '=' ∈ applyMacros st.macros line ∧ ∃ n v, Lettered n ∧ st'.macros = insertMacro n v st.macros := by
  unfold parseLine at h
  split at h
  · left
    simp only [Except.ok.injEq] at h
    rw [← h]
    split <;> rfl
  · split at h
    · cases h
    · cases h
    · rename_i p hp
      obtain ⟨u, v, huv, hd⟩ := parse_derives hp
      split at h
      · left; cases h; rfl
      · rename_i q qs hq
        have hn : lineNode st q = .ok st' := by
          revert h
          generalize lineNode st q = r
          cases r <;> simp [orCrash]
        rcases lineNode_macros hd hq hn with h | ⟨h1, h2⟩
        · exact Or.inl h
        · exact Or.inr ⟨by rw [huv]; simp [h1], h2⟩

/-- Macros have names. -/
theorem parseLines_names {U : Unicode} : ∀ (raw : List (List Char)) (i : Nat) (st st' : ParseState),
    parseLines U i raw st = .ok st' → (∀ m ∈ st.macros, m.1 ≠ []) → ∀ m ∈ st'.macros, m.1 ≠ []
  | [], i, st, st', h, hm => by cases h; exact hm
  | l :: raw, i, st, st', h, hm => by
    rw [parseLines] at h
    revert h
    generalize hp : parseLine U st i l = r
    cases r with
    | error e => intro h; cases h
    | ok s =>
      intro h
      refine parseLines_names raw (i + 1) s st' h ?_
      rcases parseLine_macros hp with h1 | ⟨_, n, v, hn, h1⟩
      · rw [h1]; exact hm
      · rw [h1]; exact insertMacro_names (P := fun n => n ≠ []) hn.ne hm

/-- Without equality signs there are no macros. -/
theorem parseLines_no_macros {U : Unicode} : ∀ (raw : List (List Char)) (i : Nat) (st st' : ParseState),
    parseLines U i raw st = .ok st' → st.macros = [] → (∀ l ∈ raw, '=' ∉ l) → st'.macros = []
  | [], i, st, st', h, hm, _ => by cases h; exact hm
  | l :: raw, i, st, st', h, hm, hr => by
    rw [parseLines] at h
    revert h
    generalize hp : parseLine U st i l = r
    cases r with
    | error e => intro h; cases h
    | ok s =>
      intro h
      refine parseLines_no_macros raw (i + 1) s st' h ?_ fun l hl => hr l (by simp [hl])
      rcases parseLine_macros hp with h1 | ⟨he, _⟩
      · rw [h1]; exact hm
      · rw [hm] at he
        exact absurd he (hr l (by simp))

theorem expression_total {l : List Char} (hl : NoHuge l) : ∃ r, ExprAst.ofText l = .ok r := by
  obtain ⟨res, hres⟩ := parse_ends .expression l
  unfold ExprAst.ofText
  rw [hres]
  cases res with
  | none => exact ⟨_, rfl⟩
  | some p =>
    obtain ⟨u, v, huv, hd⟩ := parse_derives hres
    have hn := (derives_nodes hd p (by simp))
    obtain ⟨_, hp, _⟩ := derives_node (r := .expression) hd
    rw [List.cons.injEq] at hp
    obtain ⟨e, he⟩ := parseExpression_total hn.1 (by rw [hp.1]; rfl)
      (hl.infix (hn.2.trans ⟨[], v, by rw [huv]; rfl⟩))
    simp only [he, Except.map]
    exact ⟨_, rfl⟩

theorem line_total (U : Unicode) (st : ParseState) (i : Nat) {line : List Char}
    (hl : st.wordlist = none → NoHuge (applyMacros st.macros line)) {c : Crash} :
    parseLine U st i line ≠ .error (.crash c) := by
  unfold parseLine
  cases hw : st.wordlist with
  | some wl => simp
  | none =>
    obtain ⟨res, hres⟩ := parse_ends .query (applyMacros st.macros line)
    simp only [hres]
    cases res with
    | none => simp
    | some p =>
      simp only
      cases hq : p.inner with
      | nil => simp
      | cons q qs =>
        obtain ⟨u, v, huv, hd⟩ := parse_derives hres
        obtain ⟨st', h⟩ := lineNode_total hd ((hl hw).infix ⟨[], v, by rw [huv]; rfl⟩) hq st
        simp [h, orCrash]

theorem parseLines_crash {U : Unicode} {c : Crash} : ∀ (raw : List (List Char)) (i : Nat) (st : ParseState),
    parseLines U i raw st = .error (.crash c) →
    ∃ a r b s, raw = a ++ r :: b ∧ parseLines U i a st = .ok s ∧ parseLine U s (i + a.length) r = .error (.crash c)
  | [], i, st, h => by cases h
  | l :: raw, i, st, h => by
    rw [parseLines] at h
    revert h
    generalize hp : parseLine U st i l = r
    cases r with
    | error e =>
      intro h
      have he : e = .crash c := by simpa [Except.bind] using h
      subst he
      exact ⟨[], l, raw, st, rfl, rfl, hp⟩
    | ok s =>
      intro h
      obtain ⟨a, r, b, s', h1, h3, h4⟩ := parseLines_crash raw (i + 1) s h
      refine ⟨l :: a, r, b, s', by rw [h1]; rfl, ?_, ?_⟩
      · rw [parseLines, hp]; exact h3
      · rw [List.length_cons, show i + (a.length + 1) = i + 1 + a.length by omega]; exact h4

end Noodle
