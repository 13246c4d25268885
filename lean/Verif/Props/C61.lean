import Verif.Spec.Copied
import Verif.Props.C60
import Verif.Props.C46
/-
C61: searching among earlier results. "Copy results to the custom word list" on the page, followed by another search, finds
exactly the earlier results (phrases, too) that match.
-/
namespace Noodle
open Spec
set_option autoImplicit false

/-! ### The texts -/

theorem jsWhite_codes {c : Char} (h1 : c.toNat ∉ whiteCodes) (h2 : c.toNat ≠ 0xFEFF) : jsWhite c = false := by
  unfold jsWhite
  rw [decide_eq_false_iff_not]
  unfold whiteCodes at h1
  simp only [List.mem_cons, List.not_mem_nil, or_false, not_or] at h1 ⊢
  simp [h1, h2]

theorem jsTrim_blank {t : List Char} (h : t ≠ []) (h1 : ∀ c, t.head? = some c → jsWhite c = false)
    (h2 : ∀ c, t.getLast? = some c → jsWhite c = false) : jsTrim (t ++ [' ']) = t := by
  unfold jsTrim
  obtain ⟨c, l, rfl⟩ := List.exists_cons_of_ne_nil h
  have hc := h1 c rfl
  rw [List.cons_append, List.dropWhile_cons_of_neg (by simp [hc])]
  have hb : jsWhite ' ' = true := by decide +kernel
  rw [← List.cons_append, List.reverse_append]
  show (List.dropWhile jsWhite (' ' :: (c :: l).reverse)).reverse = _
  rw [List.dropWhile_cons_of_pos hb]
  obtain ⟨d, m, hd⟩ := List.exists_cons_of_ne_nil (l := (c :: l).reverse) (by simp)
  have hlast : (c :: l).getLast? = some d := by
    rw [← List.head?_reverse, hd]; rfl
  rw [hd, List.dropWhile_cons_of_neg (by simp [h2 d hlast]), ← hd, List.reverse_reverse]

theorem flat_joined : ∀ ws : List Word, ws ≠ [] →
    ((ws.map fun w => w.text.toList).flatMap fun t => t ++ [' ']) = joined ws ++ [' ']
  | [], h => absurd rfl h
  | [w], _ => by simp [joined]
  | w :: v :: ws, _ => by
    rw [List.map_cons, List.flatMap_cons, flat_joined (v :: ws) (by simp)]
    simp [joined]

theorem joined_clean : ∀ ws : List Word, Copyable ws → Tidy (joined ws)
  | [], h => absurd rfl h.1
  | [w], h => h.2 w (by simp)
  | w :: v :: ws, h => by
    have h1 := h.2 w (by simp)
    have h2 := joined_clean (v :: ws) ⟨by simp, fun x hx => h.2 x (List.mem_cons_of_mem _ hx)⟩
    show Tidy (w.text.toList ++ ' ' :: joined (v :: ws))
    refine ⟨by simp, fun c hc => h1.head c ?_, fun c hc => h2.last c ?_, fun c hc => ?_⟩
    · rwa [List.head?_append_of_ne_nil _ h1.nonempty] at hc
    · obtain ⟨d, m, hd⟩ := List.exists_cons_of_ne_nil h2.nonempty
      rw [hd] at hc ⊢
      simpa [List.getLast?_append, List.getLast?_cons_cons] using hc
    · simp only [List.mem_append, List.mem_cons] at hc
      rcases hc with hc | rfl | hc
      · exact h1.inside c hc
      · decide
      · exact h2.inside c hc

theorem fullText_joined {ws : List Word} (h : Copyable ws) : fullText (ws.map fun w => w.text.toList) = joined ws := by
  have hc := joined_clean ws h
  unfold fullText
  rw [flat_joined ws h.1]
  exact jsTrim_blank hc.nonempty (fun c k => jsWhite_codes (hc.head c k).1 (hc.head c k).2)
    fun c k => jsWhite_codes (hc.last c k).1 (hc.last c k).2

theorem areaValue_id : ∀ l : List Char, '\r' ∉ l → areaValue l = l := by
  intro l
  induction l with
  | nil => intro _; rfl
  | cons c l ih =>
    intro h
    have hc : c ≠ '\r' := fun e => h (by simp [e])
    have hl := ih fun e => h (List.mem_cons_of_mem _ e)
    unfold areaValue
    split
    · rename_i heq; cases heq
    · rename_i heq; cases heq; exact absurd rfl hc
    · rename_i heq
      cases heq
      rw [if_neg hc, hl]

/-! ### The lines -/

theorem lines_flat : ∀ ts : List (List Char), (∀ t ∈ ts, '\n' ∉ t ∧ ';' ∉ t) →
    Lines (ts.flatMap fun t => t ++ ['\n']) (ts ++ [[]])
  | [], _ => .last (by simp) (by simp)
  | t :: ts, h => by
    have h1 := h t (by simp)
    have := lines_flat ts fun x hx => h x (List.mem_cons_of_mem _ hx)
    simpa using Lines.cons h1.1 h1.2 (.inl rfl) this

theorem trims_clean {l t : List Char} (h1 : ∀ c, l.head? = some c → c.toNat ∉ whiteCodes)
    (h2 : ∀ c, l.getLast? = some c → c.toNat ∉ whiteCodes) (h : Trims l t) : t = l := by
  obtain ⟨a, b, rfl, ha, hb, -, -⟩ := h
  have e1 : a = [] := by
    cases a with
    | nil => rfl
    | cons c a => exact absurd (ha c (by simp)) (h1 c rfl)
  subst e1
  have e2 : b = [] := by
    rcases List.eq_nil_or_concat b with rfl | ⟨m, c, rfl⟩
    · rfl
    · exact absurd (hb c (by simp)) (h2 c (by simp [← List.append_assoc]))
  subst e2
  simp

theorem listed_clean {U : Unicode} {i : Nat} {ls : List (List Char)} {ws : List Word} (h : Listed U i ls ws)
    (hc : ∀ l ∈ ls, l ≠ [] → Tidy l) :
    (∀ w ∈ ws, ∃ l ∈ ls, l ≠ [] ∧ ∃ k, w = Word.new U (String.ofList l) 1 k) ∧
    ∀ l ∈ ls, l ≠ [] → ∃ k, Word.new U (String.ofList l) 1 k ∈ ws := by
  induction h with
  | nil => simp
  | @blank i l ls ws ht _ ih =>
    obtain ⟨h1, h2⟩ := ih fun x hx => hc x (List.mem_cons_of_mem _ hx)
    have hl : l = [] := by
      apply Decidable.byContradiction
      intro hne
      have := hc l (by simp) hne
      exact hne (trims_clean (fun c hc => (this.head c hc).1) (fun c hc => (this.last c hc).1) ht).symm
    constructor
    · intro w hw
      obtain ⟨x, hx, r⟩ := h1 w hw
      exact ⟨x, List.mem_cons_of_mem _ hx, r⟩
    · intro x hx hne
      rcases List.mem_cons.1 hx with rfl | hx
      · exact absurd hl hne
      · exact h2 x hx hne
  | @word i l t ls ws ht hne _ ih =>
    obtain ⟨h1, h2⟩ := ih fun x hx => hc x (List.mem_cons_of_mem _ hx)
    have hl : l ≠ [] := by
      rintro rfl
      obtain ⟨a, b, e, -⟩ := ht
      simp at e
      exact hne e.2.1
    have := hc l (by simp) hl
    have e := trims_clean (fun c hc => (this.head c hc).1) (fun c hc => (this.last c hc).1) ht
    subst e
    constructor
    · intro w hw
      rcases List.mem_cons.1 hw with rfl | hw
      · exact ⟨t, by simp, hl, _, rfl⟩
      · obtain ⟨x, hx, r⟩ := h1 w hw
        exact ⟨x, List.mem_cons_of_mem _ hx, r⟩
    · intro x hx hne
      rcases List.mem_cons.1 hx with rfl | hx
      · exact ⟨_, List.mem_cons_self ..⟩
      · obtain ⟨k, hk⟩ := h2 x hx hne
        exact ⟨k, List.mem_cons_of_mem _ hk⟩

/-! ### The symbols -/

theorem normalise_blank {U : Unicode} (hU : BlankSplits U) (a b : List Char) :
    normalise U (a ++ ' ' :: b) = normalise U a ++ normalise U b := by
  have e1 : expandLigature ' ' = [' '] := by decide +kernel
  have e2 : chOfChar ' ' = Ch.wordEnd := by decide +kernel
  unfold normalise
  rw [hU.nfkd]
  simp [hU.isMark, hU.upper, hU.lower, e1, e2]

theorem joined_chars {U : Unicode} (hU : BlankSplits U) : ∀ ws : List Word, ws ≠ [] → (∀ w ∈ ws, FromText U w) →
    normalise U (joined ws) = charsOf ws := by
  have hw : ∀ w : Word, FromText U w → w.chars = normalise U w.text.toList := by
    rintro w ⟨tr, sc, h⟩
    rw [h]; rfl
  intro ws
  induction ws with
  | nil => intro h; exact absurd rfl h
  | cons w ws ih =>
    intro _ h
    cases ws with
    | nil => simp [joined, charsOf, hw w (h w (by simp))]
    | cons v ws =>
      have := ih (by simp) fun x hx => h x (List.mem_cons_of_mem _ hx)
      show normalise U (w.text.toList ++ ' ' :: joined (v :: ws)) = _
      rw [normalise_blank hU, this, ← hw w (h w (by simp))]
      rfl

/-- C19, with a limit that has not been reached. -/
theorem single_iff {es : List Expr} {wl : List Word} (h : Ready es wl) {depth : Nat} {limit : Option Nat} {clks : List Clock}
    {rs : List Resp} (hs : Session es wl depth limit clks rs) (hc : Completed rs)
    (hl : ∀ n, limit = some n → (reported rs).length < n) (w : Word) :
    [w] ∈ reported rs ↔ w ∈ wl ∧ ∀ e ∈ es, Matches e w.chars := by
  cases limit with
  | none => exact C19_iff h hs hc w
  | some n =>
    obtain ⟨a, -, -, hs'⟩ := complete_session h depth none
    have hc' : Completed (a ++ [Resp.complete]) := by simp [Completed]
    have := C20_first h hs hc hs' hc'
    have hn := hl n rfl
    rw [this, List.length_take] at hn
    rw [this, List.take_of_length_le (by omega)]
    exact C19_iff h hs' hc' w

/-! ### C61 -/

/-- C61: results of any earlier searches are shown (`shown`), words made from their texts, and those that the filter keeps
(at least one) are copied to the custom word list. Then another search, with a query that has no word list of its own and no
macro whose name occurs in `#wordlist`, finds as entries of the list (when it completes without reaching its limit) exactly
the earlier results, phrases too, that were copied and match. -/
theorem C61_search {U : Unicode} (hU : BlankSplits U) {name : List Char} {w n : Nat} {input : List Char} {q : QueryAst}
    (hn : (Line.dict 0 "#dict".toList 1 name 0).ok = true) (hw : w < 2 ^ 64) (hr : n < 2 ^ 64)
    (hq : QueryAst.ofText U input = .ok q) (hnone : q.options.wordlist = none)
    (hm : ∀ d ∈ q.macros, ¬ d.1 <:+: "#wordlist".toList) (hne : q.expressions ≠ []) {es : List Expr}
    (hes : q.expressions.mapM fromAst = .ok es) {shown : List (List Word)} (hcopy : ∀ ws ∈ shown, Copyable ws)
    (hfrom : ∀ ws ∈ shown, ∀ x ∈ ws, FromText U x) {keep : List Char → Bool} (hk : ∃ ws ∈ shown, keep (joined ws) = true) :
    ∃ q' wl, QueryAst.ofText U (pageText name (digits w) (digits n) input
        (copyWordlist keep (shown.map fun ws => ws.map fun x => x.text.toList))) = .ok q' ∧
      q'.expressions = q.expressions ∧ q'.options.wordlist = some wl ∧
      ∀ {depth : Nat} {limit : Option Nat} {clks : List Clock} {rs : List Resp}, Session es wl depth limit clks rs →
        Completed rs → (∀ n, limit = some n → (reported rs).length < n) → ∀ t : List Char,
          (∃ x : Word, [x] ∈ reported rs ∧ x.text.toList = t) ↔
            ∃ ws ∈ shown, joined ws = t ∧ keep t = true ∧ ∀ e ∈ es, Matches e (charsOf ws) := by
  have hts : ∀ t, t ∈ ((shown.map fun ws => ws.map fun x => x.text.toList).map fullText).filter keep ↔
      ∃ ws ∈ shown, joined ws = t ∧ keep t = true := by
    intro t
    simp only [List.mem_filter, List.mem_map, exists_exists_and_eq_and]
    constructor
    · rintro ⟨⟨ws, h1, h2⟩, h3⟩
      rw [fullText_joined (hcopy ws h1)] at h2
      exact ⟨ws, h1, h2, h3⟩
    · rintro ⟨ws, h1, h2, h3⟩
      exact ⟨⟨ws, h1, by rw [fullText_joined (hcopy ws h1)]; exact h2⟩, h3⟩
  generalize hT : ((shown.map fun ws => ws.map fun x => x.text.toList).map fullText).filter keep = ts at hts
  have hcl : ∀ t ∈ ts, Tidy t := by
    intro t ht
    obtain ⟨ws, h1, rfl, -⟩ := (hts t).1 ht
    exact joined_clean ws (hcopy ws h1)
  have hcustom : copyWordlist keep (shown.map fun ws => ws.map fun x => x.text.toList) = ts.flatMap fun t => t ++ ['\n'] := by
    unfold copyWordlist
    rw [hT]
    apply areaValue_id
    intro hmem
    obtain ⟨t, ht, hc⟩ := List.mem_flatMap.1 hmem
    rw [List.mem_append, List.mem_singleton] at hc
    rcases hc with hc | hc
    · exact ((hcl t ht).inside _ hc).2.1 rfl
    · exact absurd hc (by decide)
  have hts0 : (ts.flatMap fun t => t ++ ['\n']) ≠ [] := by
    obtain ⟨ws, h1, h2⟩ := hk
    have := (hts (joined ws)).2 ⟨ws, h1, rfl, h2⟩
    intro h0
    have := List.flatMap_eq_nil_iff.1 h0 _ this
    simp at this
  have hlines := lines_flat ts fun t ht => ⟨fun h => ((hcl t ht).inside _ h).1 rfl, fun h => ((hcl t ht).inside _ h).2.2 rfl⟩
  obtain ⟨q', ws, wl, h1, h2, h3, h4, h5⟩ := C60_custom (w := w) (n := n) hn hw hr hq hnone hm hts0 (lines_iff.2 rfl) hlines
  have hcl' : ∀ l ∈ ts ++ [[]], l ≠ [] → Tidy l := by
    intro l hl h0
    rw [List.mem_append, List.mem_singleton] at hl
    rcases hl with hl | rfl
    · exact hcl l hl
    · exact absurd rfl h0
  obtain ⟨k1, k2⟩ := listed_clean h4 hcl'
  refine ⟨q', wl, by rw [hcustom]; exact h1, h2.1, h3, fun hs hc hl t => ?_⟩
  have hready : Ready es wl := by
    refine C06_ready hne hes ?_
    have : ∀ x ∈ wl, x.tranche = 1 := by
      intro x hx
      obtain ⟨l, -, -, k, rfl⟩ := k1 x (h5.mem_iff.1 hx)
      rfl
    exact List.pairwise_of_forall_mem_list fun a ha b hb => by rw [this a ha, this b hb]
  have hmem : ∀ x : Word, x ∈ wl ↔ x ∈ ws := fun x => h5.mem_iff
  have hsym : ∀ (y : List Word) (k : Nat), y ∈ shown → (Word.new U (String.ofList (joined y)) 1 k).chars = charsOf y := by
    intro y k hy
    show normalise U (String.ofList (joined y)).toList = _
    rw [String.toList_ofList, joined_chars hU y (hcopy y hy).1 (hfrom y hy)]
  constructor
  · rintro ⟨x, hx, rfl⟩
    obtain ⟨hx1, hx2⟩ := (single_iff hready hs hc hl x).1 hx
    obtain ⟨l, l1, l2, k, rfl⟩ := k1 x ((hmem x).1 hx1)
    have l1 : l ∈ ts := by
      rw [List.mem_append, List.mem_singleton] at l1
      exact l1.resolve_right l2
    obtain ⟨y, y1, rfl, y3⟩ := (hts l).1 l1
    rw [hsym y k y1] at hx2
    refine ⟨y, y1, ?_, ?_, hx2⟩
    · show _ = (String.ofList (joined y)).toList
      rw [String.toList_ofList]
    · show keep (String.ofList (joined y)).toList = _
      rw [String.toList_ofList]; exact y3
  · rintro ⟨y, y1, rfl, y3, y4⟩
    have hy := (hts (joined y)).2 ⟨y, y1, rfl, y3⟩
    obtain ⟨k, hk⟩ := k2 _ (List.mem_append_left _ hy) (hcl _ hy).nonempty
    refine ⟨_, (single_iff hready hs hc hl _).2 ⟨(hmem _).2 hk, ?_⟩, String.toList_ofList⟩
    rw [hsym y k y1]
    exact y4

/-- C61: if the results are those of a search with the same query, the new search finds again all that were copied. -/
theorem C61_again {U : Unicode} (hU : BlankSplits U) {name : List Char} {w n : Nat} {input : List Char} {q : QueryAst}
    (hn : (Line.dict 0 "#dict".toList 1 name 0).ok = true) (hw : w < 2 ^ 64) (hr : n < 2 ^ 64)
    (hq : QueryAst.ofText U input = .ok q) (hnone : q.options.wordlist = none)
    (hm : ∀ d ∈ q.macros, ¬ d.1 <:+: "#wordlist".toList) (hne : q.expressions ≠ []) {es : List Expr}
    (hes : q.expressions.mapM fromAst = .ok es) {dict : List Word} (hd : dict.Pairwise fun a b => a.tranche ≤ b.tranche)
    (hfrom : ∀ x ∈ dict, FromText U x ∧ Tidy x.text.toList) {depth0 : Nat} {limit0 : Option Nat} {clks0 : List Clock}
    {rs0 : List Resp} (h0 : Session es dict depth0 limit0 clks0 rs0) (hu : ¬ Unsettled es rs0) {keep : List Char → Bool}
    (hk : ∃ ws ∈ reported rs0, keep (joined ws) = true) :
    ∃ q' wl, QueryAst.ofText U (pageText name (digits w) (digits n) input
        (copyWordlist keep ((reported rs0).map fun ws => ws.map fun x => x.text.toList))) = .ok q' ∧
      q'.expressions = q.expressions ∧ q'.options.wordlist = some wl ∧
      ∀ {depth : Nat} {limit : Option Nat} {clks : List Clock} {rs : List Resp}, Session es wl depth limit clks rs →
        Completed rs → (∀ n, limit = some n → (reported rs).length < n) → ∀ t : List Char,
          (∃ x : Word, [x] ∈ reported rs ∧ x.text.toList = t) ↔ ∃ ws ∈ reported rs0, joined ws = t ∧ keep t = true := by
  have hsound := C23_sound_partial (C06_ready hne hes hd) h0 hu
  obtain ⟨q', wl, h1, h2, h3, h4⟩ := C61_search hU hn hw hr hq hnone hm hne hes (shown := reported rs0)
    (fun ws hws => ⟨(hsound ws hws).1, fun x hx => (hfrom x ((hsound ws hws).2.2.1 x hx)).2⟩)
    (fun ws hws x hx => (hfrom x ((hsound ws hws).2.2.1 x hx)).1) hk
  refine ⟨q', wl, h1, h2, h3, fun hs hc hl t => (h4 hs hc hl t).trans ?_⟩
  constructor
  · rintro ⟨ws, a1, a2, a3, -⟩
    exact ⟨ws, a1, a2, a3⟩
  · rintro ⟨ws, a1, a2, a3⟩
    exact ⟨ws, a1, a2, a3, (hsound ws a1).2.2.2⟩

/-- C61: if nothing is copied (nothing was found, or the filter keeps nothing), the new search is not a search among
nothing: the field is empty, and what is sent has no word list, so that a dictionary is searched. -/
theorem C61_nothing {U : Unicode} {name : List Char} {w n : Nat} {input : List Char} {q : QueryAst}
    (hn : (Line.dict 0 "#dict".toList 1 name 0).ok = true) (hw : w < 2 ^ 64) (hr : n < 2 ^ 64)
    (hq : QueryAst.ofText U input = .ok q) (hnone : q.options.wordlist = none) {shown : List (List Word)}
    (hcopy : ∀ ws ∈ shown, Copyable ws) {keep : List Char → Bool} (hk : ∀ ws ∈ shown, keep (joined ws) = false) :
    ∃ q', QueryAst.ofText U (pageText name (digits w) (digits n) input
        (copyWordlist keep (shown.map fun ws => ws.map fun x => x.text.toList))) = .ok q' ∧
      q'.expressions = q.expressions ∧ q'.options.wordlist = none := by
  have : copyWordlist keep (shown.map fun ws => ws.map fun x => x.text.toList) = [] := by
    unfold copyWordlist
    have : ((shown.map fun ws => ws.map fun x => x.text.toList).map fullText).filter keep = [] := by
      rw [List.filter_eq_nil_iff]
      intro t ht
      simp only [List.mem_map, exists_exists_and_eq_and] at ht
      obtain ⟨ws, h1, rfl⟩ := ht
      rw [fullText_joined (hcopy ws h1), hk ws h1]
      simp
    rw [this]
    rfl
  obtain ⟨q', h1, h2, h3, -⟩ := C60_page hn hw hr hq
  exact ⟨q', by rw [this]; exact h1, h2.1, h3 hnone⟩

/-- A word with a semicolon in its text (a dictionary may have it) becomes two words when copied. -/
theorem C61_semicolon : Lines (copyWordlist (fun _ => true) [["ab".toList, "x;y".toList]]) ["ab x".toList, "y".toList, []] :=
  lines_iff.2 (by decide +kernel)

theorem fromText_new (U : Unicode) (t : String) (a b : Nat) : FromText U (Word.new U t a b) := ⟨a, b, rfl⟩

/-- The words of a dictionary file are made from their texts. -/
theorem fromText_load {U : Unicode} {file : List Char} {x : Word} (hx : x ∈ loadWordlist U file) : FromText U x := by
  obtain ⟨ls, es, ws, -, -, h3, h4, h5, -⟩ := C03_load U file
  obtain ⟨k, hk, he⟩ := List.getElem_of_mem (h5.mem_iff.1 hx)
  obtain ⟨y, h6, h7⟩ := h4 k _ (List.getElem?_eq_getElem (h3 ▸ hk))
  have : y = x := by
    rw [List.getElem?_eq_getElem hk] at h6
    rw [← he]
    exact (Option.some.inj h6).symm
  subst this
  obtain ⟨t, -, -, e1, e2, e3, -, -⟩ := h7
  refine ⟨y.tranche, y.score, ?_⟩
  obtain ⟨tr, ch, tx, sc⟩ := y
  simp only at e1 e3
  subst e1 e3
  simp [Word.new, String.toList_ofList]

/-! The hypotheses can be met. -/

theorem ascii_blank : BlankSplits asciiUnicode := ⟨fun _ _ => rfl, rfl, by decide +kernel, by decide +kernel⟩

theorem tidy_of {t : String} {l : List Char} (h : t.toList = l) (h1 : (l.all fun c => c.isAlpha) = true) (h2 : l ≠ []) :
    Tidy t.toList := by
  rw [h]
  have h3 : ∀ c ∈ l, c.toNat ∉ whiteCodes ∧ c.toNat ≠ 0xFEFF ∧ c ≠ '\n' ∧ c ≠ '\r' ∧ c ≠ ';' := by
    intro c hc
    have := List.all_eq_true.1 h1 c hc
    have hr : (65 ≤ c.toNat ∧ c.toNat ≤ 90) ∨ (97 ≤ c.toNat ∧ c.toNat ≤ 122) := by
      rcases (isAlpha_iff c).1 this with h | h <;> omega
    refine ⟨?_, by omega, ?_, ?_, ?_⟩
    · unfold whiteCodes
      simp only [List.mem_cons, List.not_mem_nil, or_false, not_or]
      omega
    all_goals
      rintro rfl
      revert hr
      decide
  refine ⟨h2, fun c hc => ?_, fun c hc => ?_, fun c hc => (h3 c hc).2.2⟩
  · exact ⟨(h3 c (List.mem_of_mem_head? hc)).1, (h3 c (List.mem_of_mem_head? hc)).2.1⟩
  · exact ⟨(h3 c (List.mem_of_getLast? hc)).1, (h3 c (List.mem_of_getLast? hc)).2.1⟩

/-- Two earlier results, the phrase `ice cream` and the word `tea`; the next query is `.*ea.*`. -/
def earlier : List (List Word) :=
  [[Word.new asciiUnicode "ice" 0 600, Word.new asciiUnicode "cream" 0 1000], [Word.new asciiUnicode "tea" 0 600]]

theorem earlier_copyable : ∀ ws ∈ earlier, Copyable ws := by
  have h1 : Tidy (Word.new asciiUnicode "ice" 0 600).text.toList := tidy_of (l := ['i', 'c', 'e']) rfl (by decide) (by simp)
  have h2 : Tidy (Word.new asciiUnicode "cream" 0 1000).text.toList :=
    tidy_of (l := ['c', 'r', 'e', 'a', 'm']) rfl (by decide) (by simp)
  have h3 : Tidy (Word.new asciiUnicode "tea" 0 600).text.toList := tidy_of (l := ['t', 'e', 'a']) rfl (by decide) (by simp)
  intro ws hws
  rcases List.mem_cons.1 hws with rfl | hws
  · refine ⟨by simp, fun w hw => ?_⟩
    simp only [List.mem_cons, List.not_mem_nil, or_false] at hw
    rcases hw with rfl | rfl
    · exact h1
    · exact h2
  · rw [List.mem_singleton] at hws
    subst hws
    refine ⟨by simp, fun w hw => ?_⟩
    rw [List.mem_singleton] at hw
    subst hw
    exact h3

theorem earlier_from : ∀ ws ∈ earlier, ∀ x ∈ ws, FromText asciiUnicode x := by
  intro ws hws x hx
  simp only [earlier, List.mem_cons, List.not_mem_nil, or_false] at hws
  rcases hws with rfl | rfl
  · simp only [List.mem_cons, List.not_mem_nil, or_false] at hx
    rcases hx with rfl | rfl <;> exact fromText_new ..
  · rw [List.mem_singleton] at hx
    subst hx
    exact fromText_new ..

example : ∃ q es, QueryAst.ofText asciiUnicode ".*ea.*".toList = .ok q ∧ q.options.wordlist = none ∧
    (∀ d ∈ q.macros, ¬ d.1 <:+: "#wordlist".toList) ∧ q.expressions ≠ [] ∧ q.expressions.mapM fromAst = .ok es ∧
    ∃ ws ∈ earlier, (fun _ : List Char => true) (joined ws) = true := by
  have hl : Lines ".*ea.*".toList [".*ea.*".toList] := lines_iff.2 (by decide +kernel)
  have hs : Script [] [".*ea.*".toList] [.expr 0 (.one (.cons .dot .star 0 (.cons (.chr 'e') .none 0
      (.cons (.chr 'a') .none 0 (.last .dot .star 0))))) []] := script_of_scriptB _ _ _ (by simp) (by decide +kernel)
  have hok := List.all_eq_true.1 (show ([Line.expr 0 (.one (.cons .dot .star 0 (.cons (.chr 'e') .none 0
      (.cons (.chr 'a') .none 0 (.last .dot .star 0))))) []].all Line.ok) = true by decide +kernel)
  obtain ⟨es, q, h1, h2, h3, -, -, -, -, h4, h5⟩ := C34_query (U := asciiUnicode) hl hs hok
  have hg : GoodQuery ".*ea.*".toList [.expr 0 (.one (.cons .dot .star 0 (.cons (.chr 'e') .none 0
      (.cons (.chr 'a') .none 0 (.last .dot .star 0))))) []] := by
    refine ⟨⟨_, hl, hs⟩, hok, by simp [exprsOf, Line.givesExpr], ?_⟩
    intro x hx e he
    simp only [exprsOf, List.filterMap_cons, Line.givesExpr, List.filterMap_nil, List.mem_singleton] at hx
    subst hx
    rw [ofText_ok 0 _ _ (by decide +kernel) rfl] at he
    obtain rfl := Option.some.inj (Except.ok.inj he)
    exact .plain (by decide +kernel) (by decide +kernel)
  obtain ⟨q', es', g1, g2, g3, g4, -⟩ := good_exact (U := asciiUnicode) hg
  rw [h1] at g1
  cases g1
  exact ⟨q, es', h1, g3, (by rw [h5]; intro d hd; cases hd), g2, g4, _, List.mem_cons_self .., rfl⟩

end Noodle
