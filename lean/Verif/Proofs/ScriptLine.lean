import Verif.Proofs.SyntaxLine
import Verif.Proofs.Script
/-
The parser reads every documented line as what it is.
-/
namespace Noodle
open Peg Spec
set_option autoImplicit false
variable {T : Nat}

/-! ### Keywords -/

theorem strip_key (s : List Char) : ∀ (key l : List Char), key.map Char.toLower = s.map Char.toLower →
    stripPrefix (fun a b => a.toLower == b.toLower) s (key ++ l) = some l := by
  induction s with
  | nil => intro key l h; rw [List.map_nil, List.map_eq_nil_iff] at h; subst h; rfl
  | cons c s ih =>
    intro key l h
    cases key with
    | nil => cases h
    | cons d key =>
      simp only [List.map_cons, List.cons.injEq] at h
      rw [List.cons_append, stripPrefix, if_pos (by simp [h.1])]
      exact ih key l h.2

theorem strip_other {key key' : List Char} (h : key.map Char.toLower = key'.map Char.toLower) :
    ∀ (s l : List Char), stripPrefix (fun a b => a.toLower == b.toLower) s (key' ++ l) = none →
      stripPrefix (fun a b => a.toLower == b.toLower) s (key ++ l) = none := by
  induction key generalizing key' with
  | nil =>
    intro s l hn
    rw [List.map_nil, eq_comm, List.map_eq_nil_iff] at h
    subst h; exact hn
  | cons d key ih =>
    intro s l hn
    cases key' with
    | nil => cases h
    | cons d' key' =>
      simp only [List.map_cons, List.cons.injEq] at h
      cases s with
      | nil => cases hn
      | cons c s =>
        simp only [List.cons_append, stripPrefix] at hn ⊢
        rw [h.1]
        split
        · rename_i hc
          rw [if_pos hc] at hn
          exact ih h.2 s l hn
        · rfl

theorem y_istr {s key : List Char} (h : key.map Char.toLower = s.map Char.toLower) (l : List Char) :
    Y T (.istr s) (key ++ l) (some ([], l)) := ⟨1, by simp only [run, strip_key s key l h, Option.map_some]⟩

theorem y_istr_fail {s l : List Char} (h : stripPrefix (fun a b => a.toLower == b.toLower) s l = none) :
    Y T (.istr s) l none := ⟨1, by simp only [run, h, Option.map_none]⟩

theorem key_lower {s : String} {key : List Char} (h : keyword s key = true) (hs : s.toList.map Char.toLower = s.toList) :
    key.map Char.toLower = s.toList.map Char.toLower := by
  rw [hs]; simpa [keyword] using h

/-- Another keyword does not fit. -/
theorem y_istr_other {s key : List Char} {k : String} (h : keyword k key = true)
    (hk : k.toList.map Char.toLower = k.toList)
    (hn : ∀ l, stripPrefix (fun a b => a.toLower == b.toLower) s (k.toList ++ l) = none) (l : List Char) :
    Y T (.istr s) (key ++ l) none :=
  y_istr_fail (strip_other (key_lower h hk) s l (hn l))

theorem toLower_hash (c : Char) (h : c.toLower = '#') : c = '#' := by
  by_cases hlt : c.toNat < 128
  · have key : ∀ n : Fin 128, (Char.ofNat n.val).toLower = '#' → Char.ofNat n.val = '#' := by decide +kernel
    have := key ⟨c.toNat, hlt⟩
    simp only [Char.ofNat_toNat] at this
    exact this h
  · have : c.toLower = c := by
      unfold Char.toLower
      rw [dif_neg]
      intro h
      have := h.2
      simp only [UInt32.le_iff_toNat_le] at this
      have h2 : c.toNat ≤ 90 := this
      omega
    rw [← this]; exact h

/-- A keyword starts with `#`. -/
theorem key_start {s : String} {key t : List Char} (h : keyword s key = true) (hs : s.toList = '#' :: t) :
    ∃ k, key = '#' :: k := by
  have h : key.map Char.toLower = s.toList := by simpa [keyword] using h
  rw [hs] at h
  cases key with
  | nil => cases h
  | cons c k =>
    simp only [List.map_cons, List.cons.injEq] at h
    exact ⟨k, by rw [toLower_hash c h.1]⟩

theorem skip_key {s : String} {key t : List Char} (h : keyword s key = true) (hs : s.toList = '#' :: t) (b : Nat)
    (l : List Char) : skip (gap b ++ (key ++ l)) = key ++ l := by
  obtain ⟨k, rfl⟩ := key_start h hs
  rw [skip_gap']
  exact sk _

theorem skip_blanks (b : Nat) : skip (gap b) = [] := by
  have := skip_gap' b []
  rw [List.append_nil] at this
  rw [this]; rfl

theorem noDigit_blanks (b : Nat) : NoDigit (gap b) := by
  have := noDigit_gap b [] (fun _ c hc => by cases hc)
  rwa [List.append_nil] at this

/-! ### Pragmas -/

/-- The pragmas, in order. -/
def pragmaExp : Exp := choices [node .pragmaWords, node .pragmaDict, node .pragmaLimit, node .pragmaQuiet,
  node .pragmaWordlist]

theorem query_pragma {text X R : List Char} {p : Pair} (hT : text.length = T) (hs : skip text = X)
    (hc : Y T pragmaExp X (some ([p], R))) (hR : skip R = []) :
    ∃ t, Y T (node .query) text (some ([.mk .query t [p, .mk .eoi [] []]], [])) :=
  node_ok rfl (y_alt_left (y_pragma (then_ok (ps := []) (y_soi hT) hs (then_ok hc hR y_eoi))))

theorem words_other {key : List Char} {k : String} (h : keyword k key = true)
    (hk : k.toList.map Char.toLower = k.toList)
    (hn : ∀ l, stripPrefix (fun a b => a.toLower == b.toLower) "#words".toList (k.toList ++ l) = none) (l : List Char) :
    Y T (node .pragmaWords) (key ++ l) none := y_node_fail (y_seq_fail (y_istr_other h hk hn l))

theorem limit_other {key : List Char} {k : String} (h : keyword k key = true)
    (hk : k.toList.map Char.toLower = k.toList)
    (hn : ∀ l, stripPrefix (fun a b => a.toLower == b.toLower) "#limit".toList (k.toList ++ l) = none) (l : List Char) :
    Y T (node .pragmaLimit) (key ++ l) none := y_node_fail (y_seq_fail (y_istr_other h hk hn l))

theorem dict_other {key : List Char} {k : String} (h : keyword k key = true)
    (hk : k.toList.map Char.toLower = k.toList)
    (hn : ∀ l, stripPrefix (fun a b => a.toLower == b.toLower) "#dict".toList (k.toList ++ l) = none)
    (hn' : ∀ l, stripPrefix (fun a b => a.toLower == b.toLower) "#dictionary".toList (k.toList ++ l) = none)
    (l : List Char) : Y T (node .pragmaDict) (key ++ l) none :=
  y_node_fail (y_seq_fail (y_alt_right (y_istr_other h hk hn l) (y_istr_other h hk hn' l)))

theorem quiet_other {key : List Char} {k : String} (h : keyword k key = true)
    (hk : k.toList.map Char.toLower = k.toList)
    (hn : ∀ l, stripPrefix (fun a b => a.toLower == b.toLower) "#quiet".toList (k.toList ++ l) = none) (l : List Char) :
    Y T (node .pragmaQuiet) (key ++ l) none := y_node_fail (y_istr_other h hk hn l)

/-- What a line does. -/
def effect (st : ParseState) : Line → ParseState
  | .expr _ a fs => { st with expressions := st.expressions ++ [exprOf a fs] }
  | .words _ _ _ n _ => { st with options := { st.options with maxWords := some n } }
  | .limit _ _ _ n _ => { st with options := { st.options with limit := some n } }
  | .dict _ _ _ name _ => { st with options := { st.options with dictionary := some (name.filter fun c => c != '-' && c != ' ') } }
  | .quiet _ _ _ => { st with options := { st.options with quiet := some true } }
  | .define _ name _ value _ => { st with macros := insertMacro name value st.macros }
  | .blank _ => st
  | .comment _ _ _ => st

/-- The parser reads a line as something that does this. -/
def Does (text : List Char) (f : ParseState → ParseState) : Prop :=
  ∃ p q rest, parse .query text = some (some p) ∧ p.inner = q :: rest ∧ ∀ st, lineNode st q = .ok (f st)

theorem does_of {text : List Char} {q : Pair} {rest : List Pair} {f : ParseState → ParseState} {t : List Char}
    {R : List Char} (h : Y text.length (node .query) text (some ([.mk .query t (q :: rest)], R)))
    (hq : ∀ st, lineNode st q = .ok (f st)) : Does text f := by
  refine ⟨.mk .query t (q :: rest), q, rest, ?_, rfl, hq⟩
  rw [parse_of_yields h]
  rfl

theorem does_words (b : Nat) (key : List Char) (g n t : Nat) (hk : keyword "#words" key = true) (hn : n < 2 ^ 64) :
    Does (Line.words b key g n t).text fun st => effect st (.words b key g n t) := by
  have e : (Line.words b key g n t).text = gap b ++ (key ++ (gap g ++ (digits n ++ gap t))) := by
    simp [Line.text, List.append_assoc]
  have hs : skip (Line.words b key g n t).text = key ++ (gap g ++ (digits n ++ gap t)) := by rw [e, skip_key hk rfl]
  obtain ⟨x, hx⟩ := node_ok (T := (Line.words b key g n t).text.length) (r := .pragmaWords) rfl
    (then_ok (ps := []) (y_istr (key_lower hk rfl) (gap g ++ (digits n ++ gap t)))
      (by rw [skip_gap', skip_digits]) (y_num n (noDigit_blanks t)))
  obtain ⟨y, hy⟩ := query_pragma rfl hs (y_alt_left hx) (skip_blanks t)
  refine does_of hy fun st => ?_
  simp [lineNode, Pair.rule, Pair.inner, parseNumbers_one n hn, effect]

theorem does_limit (b : Nat) (key : List Char) (g n t : Nat) (hk : keyword "#limit" key = true) (hn : n < 2 ^ 64) :
    Does (Line.limit b key g n t).text fun st => effect st (.limit b key g n t) := by
  have e : (Line.limit b key g n t).text = gap b ++ (key ++ (gap g ++ (digits n ++ gap t))) := by
    simp [Line.text, List.append_assoc]
  have hs : skip (Line.limit b key g n t).text = key ++ (gap g ++ (digits n ++ gap t)) := by rw [e, skip_key hk rfl]
  obtain ⟨x, hx⟩ := node_ok (T := (Line.limit b key g n t).text.length) (r := .pragmaLimit) rfl
    (then_ok (ps := []) (y_istr (key_lower hk rfl) (gap g ++ (digits n ++ gap t)))
      (by rw [skip_gap', skip_digits]) (y_num n (noDigit_blanks t)))
  obtain ⟨y, hy⟩ := query_pragma rfl hs (y_alt_right (words_other hk rfl (fun _ => rfl) _)
    (y_alt_right (dict_other hk rfl (fun _ => rfl) (fun _ => rfl) _) (y_alt_left hx))) (skip_blanks t)
  refine does_of hy fun st => ?_
  simp [lineNode, Pair.rule, Pair.inner, parseNumbers_one n hn, effect]

theorem does_quiet (b : Nat) (key : List Char) (t : Nat) (hk : keyword "#quiet" key = true) :
    Does (Line.quiet b key t).text fun st => effect st (.quiet b key t) := by
  have e : (Line.quiet b key t).text = gap b ++ (key ++ gap t) := by
    simp [Line.text, List.append_assoc]
  have hs : skip (Line.quiet b key t).text = key ++ gap t := by rw [e, skip_key hk rfl]
  obtain ⟨x, hx⟩ := node_ok (T := (Line.quiet b key t).text.length) (r := .pragmaQuiet) rfl
    (y_istr (key_lower hk rfl) (gap t))
  obtain ⟨y, hy⟩ := query_pragma rfl hs (y_alt_right (words_other hk rfl (fun _ => rfl) _)
    (y_alt_right (dict_other hk rfl (fun _ => rfl) (fun _ => rfl) _) (y_alt_right (limit_other hk rfl (fun _ => rfl) _)
      (y_alt_left hx)))) (skip_blanks t)
  refine does_of hy fun st => ?_
  simp [lineNode, Pair.rule, effect]

/-- `#wordlist` -/
theorem does_wordlist (b : Nat) (key : List Char) (t : Nat) (hk : keyword "#wordlist" key = true) :
    Does (gap b ++ (key ++ gap t)) fun st => { st with wordlist := some [] } := by
  have hs : skip (gap b ++ (key ++ gap t)) = key ++ gap t := by rw [skip_key hk rfl]
  obtain ⟨x, hx⟩ := node_ok (T := (gap b ++ (key ++ gap t)).length) (r := .pragmaWordlist) rfl
    (y_istr (key_lower hk rfl) (gap t))
  obtain ⟨y, hy⟩ := query_pragma rfl hs (y_alt_right (words_other hk rfl (fun _ => rfl) _)
    (y_alt_right (dict_other hk rfl (fun _ => rfl) (fun _ => rfl) _) (y_alt_right (limit_other hk rfl (fun _ => rfl) _)
      (y_alt_right (quiet_other hk rfl (fun _ => rfl) _) hx)))) (skip_blanks t)
  refine does_of hy fun st => ?_
  simp [lineNode, Pair.rule]

/-! ### Lines that are not pragmas -/

theorem hash_fails {s t l : List Char} (hs : s = '#' :: t) (h : ∀ c, l.head? = some c → c ≠ '#') :
    Y T (.istr s) l none := by
  subst hs
  apply y_istr_fail
  cases l with
  | nil => rfl
  | cons c l =>
    rw [stripPrefix, if_neg]
    intro e
    have e : ('#' : Char).toLower = c.toLower := by simpa using e
    exact h c rfl (toLower_hash c (e.symm.trans rfl))

theorem pragma_fails {text X : List Char} (hT : text.length = T) (hs : skip text = X)
    (h : ∀ c, X.head? = some c → c ≠ '#') : Y T (.ref .pragma) text none := by
  refine y_pragma (then_fail (ps := []) (y_soi hT) hs (y_seq_fail ?_))
  refine y_alt_right (y_node_fail (y_seq_fail (hash_fails rfl h))) ?_
  refine y_alt_right (y_node_fail (y_seq_fail (y_alt_right (hash_fails rfl h) (hash_fails rfl h)))) ?_
  refine y_alt_right (y_node_fail (y_seq_fail (hash_fails rfl h))) ?_
  exact y_alt_right (y_node_fail (hash_fails rfl h)) (y_node_fail (hash_fails rfl h))

/-- Without `=` there is no definition. -/
theorem define_fails {text X : List Char} (hT : text.length = T) (hs : skip text = X) (h : '=' ∉ X) :
    Y T (node .macroDefine) text none := by
  refine y_node_fail (then_fail (ps := []) (y_soi hT) hs ?_)
  obtain ⟨res, hres⟩ := yields_total .macroName X T
  cases res with
  | none => exact y_seq_fail hres
  | some q =>
    refine then_fail (ps := q.1) (l1 := q.2) hres rfl (y_seq_fail (lit_ne (a := '=') (t := []) rfl ?_))
    intro c hc e
    subst e
    obtain ⟨n, hn⟩ := hres
    have h1 := run_suffix _ _ _ _ _ _ _ _ hn
    have h2 := skip_suffix q.2
    refine h ((h2.trans h1).subset ?_)
    exact List.mem_of_mem_head? hc

/-! #### Expressions contain no `=` -/

theorem eq_notin_gap (n : Nat) : '=' ∉ gap n := by simp [gap]
theorem eq_notin_digits (n : Nat) : '=' ∉ digits n := fun h => absurd (digits_digit n _ h) (by decide)
theorem eq_notin_suffix (s : Suffix) : '=' ∉ s.text := by
  cases s <;> simp [Suffix.text, eq_notin_digits]
theorem eq_notin_item (i : Item) (h : i.ok = true) : '=' ∉ i.text := by
  cases i with
  | one c =>
    simp only [Item.ok] at h
    simp only [Item.text, List.mem_singleton]
    rintro rfl
    exact absurd h (by decide)
  | range lo hi =>
    simp only [Item.ok, Bool.and_eq_true] at h
    simp only [Item.text, List.mem_cons, List.not_mem_nil, or_false, not_or]
    refine ⟨?_, by decide, ?_⟩
    · rintro rfl; exact absurd h.1 (by decide)
    · rintro rfl; exact absurd h.2 (by decide)

mutual
theorem eq_notin_term : ∀ t : Term, t.ok = true → '=' ∉ t.text
  | .chr c, h => by
    simp only [Term.ok] at h
    simp only [Term.text, List.mem_singleton]
    rintro rfl; exact absurd h (by decide)
  | .dot, _ => by simp [Term.text]
  | .cls neg items, h => by
    simp only [Term.ok, Bool.and_eq_true] at h
    simp only [Term.text, List.mem_append, List.mem_flatMap, List.mem_singleton, not_or, not_exists, not_and]
    refine ⟨⟨⟨by decide, by cases neg <;> simp⟩, fun i hi => ?_⟩, by decide⟩
    exact eq_notin_item i (List.all_eq_true.1 h.2 i hi)
  | .num n, _ => by simp [Term.text, eq_notin_digits]
  | .group a, h => by
    simp only [Term.ok] at h
    simp [Term.text, eq_notin_alts a h]
  | .bank k ls, h => by
    simp only [Term.ok, Bool.and_eq_true] at h
    simp only [Term.text, List.mem_append, List.mem_singleton, not_or]
    refine ⟨⟨by decide, fun hm => ?_⟩, ?_⟩
    · exact absurd (List.all_eq_true.1 h.2 _ hm) (by decide)
    · cases k <;> simp [bankText, eq_notin_digits]
  | .part k r, h => by
    simp only [Term.ok, Bool.and_eq_true] at h
    simp only [Term.text, List.mem_append, List.mem_singleton, not_or]
    exact ⟨⟨by decide, eq_notin_row r h.1⟩, by cases k <;> simp [PartKind.text]⟩
theorem eq_notin_row : ∀ r : Row, r.ok = true → '=' ∉ r.text
  | .last t s b, h => by
    simp only [Row.ok, Bool.and_eq_true] at h
    simp [Row.text, eq_notin_term t h.1, eq_notin_suffix, eq_notin_gap]
  | .cons t s b r, h => by
    simp only [Row.ok, Bool.and_eq_true] at h
    simp [Row.text, eq_notin_term t h.1.1.1, eq_notin_suffix, eq_notin_gap, eq_notin_row r h.1.2]
theorem eq_notin_alts : ∀ a : Alts, a.ok = true → '=' ∉ a.text
  | .one r, h => by
    simp only [Alts.ok] at h
    simp [Alts.text, eq_notin_row r h]
  | .more r b a, h => by
    simp only [Alts.ok, Bool.and_eq_true] at h
    simp [Alts.text, eq_notin_row r h.1, eq_notin_gap, eq_notin_alts a h.2]
end

theorem eq_notin_flags (fs : List (Flag × Nat)) : '=' ∉ flagsText fs := by
  simp only [flagsText, List.mem_flatMap, not_exists, not_and]
  rintro ⟨f, b⟩ _
  cases f <;> simp [Flag.text, eq_notin_gap, eq_notin_digits]

theorem does_expr (b : Nat) (a : Alts) (fs : List (Flag × Nat)) (ha : a.ok = true)
    (hf : (fs.all fun f => f.1.ok) = true) :
    Does (Line.expr b a fs).text fun st => effect st (.expr b a fs) := by
  obtain ⟨p, h1, h2, h3⟩ := expression_ok b a fs ha hf rfl
  obtain ⟨c, l, hc, hst⟩ := alts_start a ha
  have hsk : skip (exprText b a fs) = c :: (l ++ flagsText fs) := by
    rw [exprText, List.append_assoc, skip_gap', hc]
    exact skip_start _ hst
  have f1 : Y (exprText b a fs).length (.ref .pragma) (exprText b a fs) none := pragma_fails rfl hsk (by
    intro d hd
    simp at hd; subst hd
    rintro rfl; exact absurd hst (by decide))
  have f2 : Y (exprText b a fs).length (node .macroDefine) (exprText b a fs) none := define_fails rfl rfl (by
    intro hm
    have := (skip_suffix (exprText b a fs)).subset hm
    simp [exprText, eq_notin_gap, eq_notin_alts a ha, eq_notin_flags] at this)
  obtain ⟨t, ht⟩ := node_ok (T := (exprText b a fs).length) (r := .query) rfl
    (y_alt_right f1 (y_alt_right f2 (y_alt_left h1)))
  refine does_of ht fun st => ?_
  simp [lineNode, h2, h3, Except.map, effect]

/-- A line of which nothing is left after skipping. -/
theorem does_nothing {text : List Char} (hs : skip text = []) : Does text fun st => st := by
  have f1 : Y text.length (.ref .pragma) text none := pragma_fails rfl hs (by intro c hc; cases hc)
  have f2 : Y text.length (node .macroDefine) text none := define_fails rfl hs (by simp)
  have f3 : Y text.length (node .expression) text none := by
    refine y_node_fail (then_fail (ps := []) (y_soi rfl) hs (y_seq_fail ?_))
    have hcl : Closing [] := by intro c hc; cases hc
    have f4 : Y text.length (node .sequence) [] none := y_node_fail (y_seq_fail (piece_fails hcl))
    exact y_subexpression (y_alt_right (y_node_fail (y_seq_fail f4)) f4)
  obtain ⟨t, ht⟩ := node_ok (T := text.length) (r := .query) rfl
    (y_alt_right f1 (y_alt_right f2 (y_alt_right f3 (y_emptyLine (then_ok (ps := []) (y_soi rfl) hs y_eoi)))))
  exact does_of ht fun st => by simp [lineNode, Pair.rule]

theorem skip_comment (b : Nat) (m : Char) (hm : m = '/' ∨ m = '-') (x : Char) (xs : List Char) :
    skip (gap b ++ (m :: m :: x :: xs)) = [] := by
  rw [skip_gap']
  rcases hm with rfl | rfl <;> rfl


/-! ### Definitions -/

/-- The characters after the first of a macro name. -/
def nameTail : Exp := choices [alphaChar, digitChar, lit "_"]

theorem nameTail_ok {c : Char} (h : nameChar c = true) (Z : List Char) : Y T nameTail (c :: Z) (some ([], Z)) := by
  by_cases h1 : c.isAlpha = true
  · exact y_alt_left (y_chr h1)
  · have h1 : c.isAlpha = false := by simpa using h1
    refine y_alt_right (y_chr_fail fun d hd => by simp at hd; subst hd; exact h1) ?_
    by_cases h2 : c.isDigit = true
    · exact y_alt_left (y_chr h2)
    · have h2 : c.isDigit = false := by simpa using h2
      refine y_alt_right (y_chr_fail fun d hd => by simp at hd; subst hd; exact h2) ?_
      simp [nameChar, h1, h2] at h
      subst h
      exact lit_ok (t := ['_']) rfl Z

theorem nameTail_fails (Z : List Char) : Y T nameTail ('=' :: Z) none :=
  y_alt_right (y_chr_fail fun d hd => by simp at hd; subst hd; rfl)
    (y_alt_right (y_chr_fail fun d hd => by simp at hd; subst hd; rfl) (lit_ne (a := '_') (t := []) rfl ne_head))

theorem nameChar_start {c : Char} (h : nameChar c = true) : startChar c = true := by
  unfold nameChar at h
  unfold startChar
  simp only [Bool.or_eq_true, beq_iff_eq] at h ⊢
  rcases h with (h | h) | h <;> simp [h]

theorem nameTail_more : ∀ (ls : List Char) (_ : ls.all nameChar = true) (Z : List Char),
    Y T (.more nameTail) (ls ++ '=' :: Z) (some ([], '=' :: Z))
  | [], _, Z => by
    refine y_more_nil ?_
    rw [between_false, List.nil_append, sk]
    exact nameTail_fails Z
  | c :: ls, hok, Z => by
    simp only [List.all_cons, Bool.and_eq_true] at hok
    refine y_more_cons (ps := []) (qs := []) (l1 := ls ++ '=' :: Z) ?_ (nameTail_more ls hok.2 Z)
    rw [between_false, List.cons_append, skip_start _ (nameChar_start hok.1)]
    exact nameTail_ok hok.1 _

theorem macroName_ok (name : List Char) (h : nameOk name = true) (Z : List Char) :
    Y T (node .macroName) (name ++ '=' :: Z) (some ([.mk .macroName name []], '=' :: Z)) := by
  have key : Y T (grammar (.vis .macroName)).2 (name ++ '=' :: Z) (some ([], '=' :: Z)) := by
    match name, h with
    | [c], h =>
      simp only [nameOk, Bool.and_eq_true] at h
      exact then_ok (ps := []) (qs := []) (y_chr h.1) (sk _) (y_star_nil (nameTail_fails Z))
    | c :: d :: ls, h =>
      simp only [nameOk, List.all_cons, Bool.and_eq_true] at h
      exact then_ok (ps := []) (qs := []) (y_chr h.1) (skip_start _ (nameChar_start h.2.1))
        (y_star_cons (ps := []) (qs := []) (nameTail_ok h.2.1 _) (nameTail_more ls h.2.2 Z))
  have := y_node (r := .macroName) rfl key
  rwa [take_app] at this

/-- The characters of a macro value. -/
def valueExp : Exp := .chr fun c => decide (' '.toNat ≤ c.toNat) && decide (c.toNat ≤ '~'.toNat)

theorem skip_value {c : Char} {v : List Char} (hc : c ≠ ' ') (h : noComment (c :: v) = true) (t : Nat) :
    skip (c :: v ++ gap t) = c :: v ++ gap t := by
  unfold skip
  have : List.dropWhile (fun x => x == ' ') (c :: v ++ gap t) = c :: v ++ gap t := by
    rw [List.cons_append, List.dropWhile_cons]; simp [hc]
  simp only [this]
  have hn : comment (c :: v ++ gap t) = none := by
    simp only [noComment, Bool.and_eq_true, Bool.not_eq_true', Bool.and_eq_false_iff, beq_eq_false_iff_ne] at h
    have e1 : ("//".toList : List Char) = ['/', '/'] := rfl
    have e2 : ("--".toList : List Char) = ['-', '-'] := rfl
    have key : ∀ m : Char, m ≠ ' ' → (c ≠ m ∨ v.head? ≠ some m) →
        stripPrefix (· == ·) [m, m] (c :: v ++ gap t) = none := by
      intro m hm hor
      rw [List.cons_append, stripPrefix]
      split
      · rename_i hcm
        have hcm : m = c := by simpa using hcm
        have hv : v.head? ≠ some m := by
          rcases hor with h | h
          · exact absurd hcm.symm h
          · exact h
        cases v with
        | nil =>
          cases t with
          | zero => rfl
          | succ t =>
            rw [List.nil_append, gap, List.replicate_succ]
            exact strip_ne (fun e => hm e.symm)
        | cons d v =>
          exact strip_ne (fun e => hv (by rw [e]; rfl))
      · rfl
    rw [comment, e1, e2, key '/' (by decide) h.1.1, key '-' (by decide) h.1.2]
    rfl
  rw [hn]; rfl

theorem noComment_tail {c : Char} {v : List Char} (h : noComment (c :: v) = true) : noComment v = true := by
  simp only [noComment, Bool.and_eq_true] at h
  exact h.2

/-! ### Names of dictionaries -/

/-- The characters of a dictionary name. -/
def nameExp : Exp := .alt (node .character) (lit "-")

/-- One of them. -/
theorem name_item {c : Char} (h : (plainChar c || c == '.' || c == '-' || c == ' ') = true) (hc : c ≠ ' ') (Z : List Char) :
    ∃ ps, Y T nameExp (c :: Z) (some (ps, Z)) ∧ ps.flatMap Pair.text = [c].filter fun c => c != '-' && c != ' ' := by
  by_cases hm : c = '-'
  · subst hm
    exact ⟨[], y_alt_right (char_node_fails fun c hc => by cases hc; decide) (lit_ok (t := ['-']) rfl Z), rfl⟩
  · have h : (plainChar c || c == '.') = true := by
      simp only [Bool.or_eq_true, beq_iff_eq] at h ⊢
      rcases h with (h | h) | h
      · exact h
      · exact absurd h hm
      · exact absurd h hc
    obtain ⟨qs, hq⟩ := character_ok (T := T) c h Z
    exact ⟨_, y_alt_left hq, by simp [Pair.text, hm, hc]⟩

theorem name_end : Y T nameExp [] none :=
  y_alt_right (char_node_fails fun c hc => by cases hc) (lit_ne (a := '-') (t := []) rfl fun c hc => by cases hc)

/-- Blanks in front. -/
theorem blanks_split : ∀ ls : List Char, (∃ k, ls = gap k) ∨ ∃ k c ls', ls = gap k ++ c :: ls' ∧ c ≠ ' '
  | [] => .inl ⟨0, rfl⟩
  | c :: ls => by
    by_cases hc : c = ' '
    · subst hc
      rcases blanks_split ls with ⟨k, rfl⟩ | ⟨k, d, ls', rfl, hd⟩
      · exact .inl ⟨k + 1, rfl⟩
      · exact .inr ⟨k + 1, d, ls', rfl, hd⟩
    · exact .inr ⟨0, c, ls, rfl, hc⟩

theorem noComment_right : ∀ {a b : List Char}, noComment (a ++ b) = true → noComment b = true
  | [], _, h => h
  | _ :: _, _, h => noComment_right (noComment_tail h)

theorem name_more : ∀ (n : Nat) (ls : List Char) (_ : ls.length ≤ n)
    (_ : (ls.all fun c => plainChar c || c == '.' || c == '-' || c == ' ') = true) (_ : noComment ls = true) (t : Nat),
    ∃ ps R, Y T (.more nameExp) (ls ++ gap t) (some (ps, R)) ∧ skip R = [] ∧
      ps.flatMap Pair.text = ls.filter fun c => c != '-' && c != ' '
  | n, ls, hn, hok, hc, t => by
    rcases blanks_split ls with ⟨k, rfl⟩ | ⟨k, c, ls', rfl, hd⟩
    · refine ⟨[], _, y_more_nil ?_, by rw [skip_gap', skip_blanks], by simp [gap]⟩
      rw [between_false, skip_gap', skip_blanks]
      exact name_end
    · have hc' := noComment_right hc
      simp only [List.all_append, List.all_cons, Bool.and_eq_true] at hok
      obtain ⟨ps, h1, h2⟩ := name_item (T := T) hok.2.1 hd (ls' ++ gap t)
      match n, hn with
      | 0, hn => simp at hn
      | n + 1, hn =>
        obtain ⟨qs, R, h3, h4, h5⟩ := name_more n ls' (by simp at hn; omega) hok.2.2 (noComment_tail hc') t
        refine ⟨ps ++ qs, R, y_more_cons ?_ h3, h4, ?_⟩
        · rw [between_false, List.append_assoc, skip_gap', skip_value hd hc']
          exact h1
        · rw [List.flatMap_append, h2, h5, List.filter_append, ← List.filter_append (l₁ := [c])]
          simp [gap]

theorem does_dict (b : Nat) (key : List Char) (g : Nat) (name : List Char) (t : Nat) (hk : keyword "#dict" key = true)
    (hne : (name.any fun c => c != ' ') = true)
    (hok : (name.all fun c => plainChar c || c == '.' || c == '-' || c == ' ') = true) (hc : noComment name = true) :
    Does (Line.dict b key g name t).text fun st => effect st (.dict b key g name t) := by
  have e : (Line.dict b key g name t).text = gap b ++ (key ++ (gap g ++ (name ++ gap t))) := by
    simp [Line.text, List.append_assoc]
  have hs : skip (Line.dict b key g name t).text = key ++ (gap g ++ (name ++ gap t)) := by rw [e, skip_key hk rfl]
  generalize hT : (Line.dict b key g name t).text.length = T at *
  rcases blanks_split name with ⟨k, rfl⟩ | ⟨k, c, ls, rfl, hd⟩
  · simp [gap] at hne
  have hc' := noComment_right hc
  have hall := hok
  simp only [List.all_append, List.all_cons, Bool.and_eq_true] at hok
  have hsn : skip (gap g ++ ((gap k ++ c :: ls) ++ gap t)) = c :: (ls ++ gap t) := by
    rw [skip_gap', List.append_assoc, skip_gap', skip_value hd hc']; rfl
  obtain ⟨ps, h1, h2⟩ := name_item (T := T) hok.2.1 hd (ls ++ gap t)
  have key1 : ∃ qs R, Y T (.star nameExp) (skip (ls ++ gap t)) (some (qs, R)) ∧ skip R = [] ∧
      qs.flatMap Pair.text = ls.filter fun c => c != '-' && c != ' ' := by
    have hc2 := noComment_tail hc'
    rcases blanks_split ls with ⟨j, rfl⟩ | ⟨j, d, ls', rfl, hd'⟩
    · refine ⟨[], [], ?_, rfl, by simp [gap]⟩
      rw [skip_gap', skip_blanks]
      exact y_star_nil name_end
    · have hc3 := noComment_right hc2
      simp only [List.all_append, List.all_cons, Bool.and_eq_true] at hok
      obtain ⟨qs, g1, g2⟩ := name_item (T := T) hok.2.2.2.1 hd' (ls' ++ gap t)
      obtain ⟨rs, R, g3, g4, g5⟩ := name_more (T := T) _ ls' (Nat.le_refl _) hok.2.2.2.2 (noComment_tail hc3) t
      refine ⟨qs ++ rs, R, ?_, g4, ?_⟩
      · rw [List.append_assoc, skip_gap', skip_value hd' hc3]
        exact y_star_cons g1 g3
      · rw [List.flatMap_append, g2, g5, List.filter_append, ← List.filter_append (l₁ := [d])]
        simp [gap]
  obtain ⟨qs, R, h3, h4, h5⟩ := key1
  obtain ⟨x, hx⟩ := node_ok (T := T) (r := .pragmaDict) rfl
    (then_ok (ps := []) (y_alt_left (y_istr (key_lower hk rfl) (gap g ++ ((gap k ++ c :: ls) ++ gap t)))) hsn
      (then_ok h1 rfl h3))
  obtain ⟨y, hy⟩ := query_pragma hT hs (y_alt_right (words_other hk rfl (fun _ => rfl) _) (y_alt_left hx)) h4
  rw [← hT] at hy
  refine does_of hy fun st => ?_
  have h6 : (ps ++ qs).flatMap Pair.text = (gap k ++ c :: ls).filter fun c => c != '-' && c != ' ' := by
    rw [List.flatMap_append, h2, h5, List.filter_append, ← List.filter_append (l₁ := [c])]
    simp [gap]
  simp only [lineNode, Pair.rule, Pair.inner, effect, List.nil_append]
  rw [h6]

theorem value_more : ∀ (v : List Char) (_ : v.all (fun c => decide (32 ≤ c.toNat) && decide (c.toNat ≤ 126)) = true)
    (_ : v.getLast? ≠ some ' ') (_ : noComment v = true) (t : Nat), Y T (.more valueExp) (v ++ gap t) (some ([], gap t))
  | [], _, _, _, t => by
    refine y_more_nil ?_
    rw [between_false, List.nil_append, skip_blanks]
    exact y_chr_fail fun c hc => by cases hc
  | c :: v, h1, h2, h3, t => by
    by_cases hc : c = ' '
    · subst hc
      cases v with
      | nil => exact absurd rfl h2
      | cons d v =>
        simp only [List.all_cons, Bool.and_eq_true] at h1
        have ih := value_more (d :: v) (by simpa using h1.2) (by simpa using h2) (noComment_tail h3) t
        -- the blank is skipped together with what follows it
        have e : skip (' ' :: d :: v ++ gap t) = skip (d :: v ++ gap t) := skip_blank _
        obtain ⟨n, hn⟩ := ih
        refine ⟨n, ?_⟩
        cases n with
        | zero => cases hn
        | succ n =>
          simp only [run, Bool.false_eq_true, if_false] at hn ⊢
          rw [e]
          cases h4 : run grammar T n false valueExp (skip (d :: v ++ gap t)) with
          | none => rw [h4] at hn; cases hn
          | some r =>
            rw [h4] at hn
            cases r with
            | none =>
              simp only [Option.bind_some, Option.some.injEq, Prod.mk.injEq] at hn
              have := congrArg List.length hn.2
              simp at this
              omega
            | some q => exact hn
    · simp only [List.all_cons, Bool.and_eq_true] at h1
      refine y_more_cons (ps := []) (qs := []) (l1 := v ++ gap t) ?_
        (value_more v h1.2 (by
          intro h
          cases v with
          | nil => cases h
          | cons d v => exact h2 (by simpa using h)) (noComment_tail h3) t)
      rw [between_false, skip_value hc h3]
      refine y_chr ?_
      simpa using h1.1

theorem macroValue_ok (v : List Char) (h : valueOk v = true) (t : Nat) :
    ∃ R, Y T (node .macroValue) (skip (v ++ gap t)) (some ([.mk .macroValue v []], R)) ∧ skip R = [] := by
  simp only [valueOk, Bool.and_eq_true, bne_iff_ne, ne_eq] at h
  obtain ⟨⟨⟨h1, h2⟩, h3⟩, h4⟩ := h
  cases v with
  | nil =>
    refine ⟨[], ?_, rfl⟩
    rw [List.nil_append, skip_blanks]
    have : Y T (grammar (.vis .macroValue)).2 [] (some ([], [])) := y_star_nil (y_chr_fail fun c hc => by cases hc)
    exact y_node (r := .macroValue) rfl this
  | cons c v =>
    have hc : c ≠ ' ' := by intro e; subst e; exact h2 rfl
    refine ⟨gap t, ?_, skip_blanks t⟩
    rw [skip_value hc h4]
    have h1' := h1
    simp only [List.all_cons, Bool.and_eq_true] at h1'
    have : Y T (grammar (.vis .macroValue)).2 (c :: v ++ gap t) (some ([], gap t)) :=
      y_star_cons (ps := []) (qs := []) (l1 := v ++ gap t) (y_chr (by simpa using h1'.1))
        (value_more v h1'.2 (by
          intro h
          cases v with
          | nil => cases h
          | cons d v => exact h3 (by simpa using h)) (noComment_tail h4) t)
    have := y_node (r := .macroValue) rfl this
    rwa [take_app] at this

theorem does_define (b : Nat) (name : List Char) (g : Nat) (value : List Char) (t : Nat) (h1 : nameOk name = true)
    (h2 : valueOk value = true) :
    Does (Line.define b name g value t).text fun st => effect st (.define b name g value t) := by
  have e : (Line.define b name g value t).text = gap b ++ (name ++ '=' :: (gap g ++ (value ++ gap t))) := by
    simp [Line.text, List.append_assoc]
  have hs : skip (Line.define b name g value t).text = name ++ '=' :: (gap g ++ (value ++ gap t)) := by
    rw [e, skip_gap']
    cases name with
    | nil => cases h1
    | cons c name =>
      simp only [nameOk, Bool.and_eq_true] at h1
      exact skip_start _ (alpha_start h1.1)
  have f1 : Y (Line.define b name g value t).text.length (.ref .pragma) (Line.define b name g value t).text none :=
    pragma_fails rfl hs (by
      intro d hd
      cases name with
      | nil => cases h1
      | cons c name =>
        simp only [nameOk, Bool.and_eq_true] at h1
        simp at hd; subst hd
        rintro rfl; exact absurd h1.1 (by decide))
  obtain ⟨R, h3, h4⟩ := macroValue_ok (T := (Line.define b name g value t).text.length) value h2 t
  obtain ⟨x, hx⟩ := node_ok (T := (Line.define b name g value t).text.length) (r := .macroDefine) rfl
    (then_ok (ps := []) (y_soi rfl) hs (then_ok (macroName_ok name h1 _) (sk _)
      (then_ok (ps := []) (lit_ok (t := ['=']) rfl (gap g ++ (value ++ gap t))) (skip_gap' g _) (then_ok h3 h4 y_eoi))))
  obtain ⟨y, hy⟩ := node_ok (T := (Line.define b name g value t).text.length) (r := .query) rfl
    (y_alt_right f1 (y_alt_left hx))
  refine does_of hy fun st => ?_
  simp [lineNode, Pair.rule, Pair.inner, Pair.text, effect]

/-- Every documented line is read as what it is. -/
theorem does_line (l : Line) (h : l.ok = true) : Does l.text fun st => effect st l := by
  cases l with
  | expr b a fs =>
    simp only [Line.ok, Bool.and_eq_true] at h
    exact does_expr b a fs h.1 h.2
  | words b key g n t =>
    simp only [Line.ok, Bool.and_eq_true, decide_eq_true_eq] at h
    exact does_words b key g n t h.1 h.2
  | limit b key g n t =>
    simp only [Line.ok, Bool.and_eq_true, decide_eq_true_eq] at h
    exact does_limit b key g n t h.1 h.2
  | dict b key g name t =>
    simp only [Line.ok, Bool.and_eq_true] at h
    exact does_dict b key g name t h.1.1.1 h.1.1.2 h.1.2 h.2
  | quiet b key t => exact does_quiet b key t h
  | define b name g value t =>
    simp only [Line.ok, Bool.and_eq_true] at h
    exact does_define b name g value t h.1 h.2
  | blank n => exact does_nothing (skip_blanks n)
  | comment b m text =>
    simp only [Line.ok, Bool.and_eq_true, Bool.or_eq_true, beq_iff_eq, Bool.not_eq_true', List.isEmpty_eq_false_iff] at h
    cases text with
    | nil => exact absurd rfl h.2
    | cons x xs =>
      refine does_nothing ?_
      have := skip_comment b m h.1 x xs
      simpa [Line.text] using this

end Noodle
