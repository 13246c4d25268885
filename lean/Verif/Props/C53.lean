import Verif.Spec.Metrics
import Verif.Props.C38
/-
C53: the pages that describe the server: `/metrics` and `/wordlists.js`. C54: the word lists served can be loaded again.
-/
namespace Noodle
open Spec
set_option autoImplicit false

/-! ### The Prometheus text format can be read in one way only -/

theorem label_unique {e d : List Char} (h : LabelText e d) : ∀ {e' d' r r' : List Char}, LabelText e' d' →
    e ++ '"' :: r = e' ++ '"' :: r' → d = d' ∧ r = r' := by
  induction h with
  | nil =>
    intro e' d' r r' h' he
    cases h' with
    | nil => simp at he; exact ⟨rfl, he⟩
    | raw h1 => simp at he; exact absurd he.1.symm h1
    | quote => simp at he
    | backslash => simp at he
    | newline => simp at he
  | raw h1 h2 h3 _ ih =>
    intro e' d' r r' h' he
    cases h' with
    | nil => simp at he; exact absurd he.1 h1
    | raw _ _ _ h4 =>
      simp only [List.cons_append, List.cons.injEq] at he
      obtain ⟨h5, h6⟩ := ih h4 he.2
      exact ⟨by rw [he.1, h5], h6⟩
    | quote => simp at he; exact absurd he.1 h2
    | backslash => simp at he; exact absurd he.1 h2
    | newline => simp at he; exact absurd he.1 h2
  | quote _ ih =>
    intro e' d' r r' h' he
    cases h' with
    | nil => simp at he
    | raw _ h2 => simp at he; exact absurd he.1.symm h2
    | quote h4 => simp at he; obtain ⟨h5, h6⟩ := ih h4 he; exact ⟨by rw [h5], h6⟩
    | backslash => simp at he
    | newline => simp at he
  | backslash _ ih =>
    intro e' d' r r' h' he
    cases h' with
    | nil => simp at he
    | raw _ h2 => simp at he; exact absurd he.1.symm h2
    | backslash h4 => simp at he; obtain ⟨h5, h6⟩ := ih h4 he; exact ⟨by rw [h5], h6⟩
    | quote => simp at he
    | newline => simp at he
  | newline _ ih =>
    intro e' d' r r' h' he
    cases h' with
    | nil => simp at he
    | raw _ h2 => simp at he; exact absurd he.1.symm h2
    | newline h4 => simp at he; obtain ⟨h5, h6⟩ := ih h4 he; exact ⟨by rw [h5], h6⟩
    | quote => simp at he
    | backslash => simp at he

theorem label_line {e d : List Char} (h : LabelText e d) : '\n' ∉ e := by
  induction h with
  | nil => simp
  | raw _ _ h3 _ ih => simp [ih]; exact fun h => h3 h.symm
  | quote _ ih => simp [ih]
  | backslash _ ih => simp [ih]
  | newline _ ih => simp [ih]

theorem metricName_notin {n : List Char} (h : MetricName n) {c : Char} (h1 : c.isAlphanum = false) (h2 : c ≠ '_')
    (h3 : c ≠ ':') : c ∉ n := by
  intro hc
  rcases h.1 c hc with h4 | h4 | h4
  · rw [h1] at h4; cases h4
  · exact h2 h4
  · exact h3 h4

theorem label_open : "{wordlist=\"".toList = '{' :: "wordlist=\"".toList := by decide
theorem label_close : "\"} ".toList = '"' :: "} ".toList := by decide
theorem blank_text : " ".toList = [' '] := by decide

theorem sampleLine_unique {l : List Char} {s s' : Sample} (h : SampleLine l s) (h' : SampleLine l s') : s = s' := by
  have hlab : ∀ {n e d ds n' ds' : List Char} {v v' : Nat}, MetricName n → LabelText e d → Decimal ds v → MetricName n' →
      Decimal ds' v' → n ++ "{wordlist=\"".toList ++ e ++ "\"} ".toList ++ ds = n' ++ " ".toList ++ ds' → False := by
    intro n e d ds n' ds' v v' h1 h2 h3 h4 h5 he
    have h6 : '{' ∈ n' ++ " ".toList ++ ds' := by rw [← he, label_open]; simp
    rw [blank_text] at h6
    simp only [List.mem_append, List.mem_singleton] at h6
    rcases h6 with (h6 | h6) | h6
    · exact metricName_notin h4 (by decide) (by decide) (by decide) h6
    · cases h6
    · exact decimal_notin h5 (by decide) h6
  generalize hL : l = L at h'
  cases h with
  | plain h1 h2 =>
    cases h' with
    | plain h3 h4 =>
      rw [blank_text] at hL
      simp only [List.append_assoc, List.cons_append, List.nil_append] at hL
      obtain ⟨rfl, rfl⟩ := split_at (metricName_notin h1 (by decide) (by decide) (by decide))
        (metricName_notin h3 (by decide) (by decide) (by decide)) hL
      rw [(decimal_of h2).2.2.symm.trans (decimal_of h4).2.2]
    | labelled h3 h4 h5 => exact (hlab h3 h4 h5 h1 h2 hL.symm).elim
  | labelled h1 h2 h3 =>
    cases h' with
    | plain h4 h5 => exact (hlab h1 h2 h3 h4 h5 hL).elim
    | labelled h4 h5 h6 =>
      rw [label_open, label_close] at hL
      simp only [List.append_assoc, List.cons_append] at hL
      obtain ⟨rfl, h7⟩ := split_at (metricName_notin h1 (by decide) (by decide) (by decide))
        (metricName_notin h4 (by decide) (by decide) (by decide)) hL
      obtain ⟨rfl, h8⟩ := label_unique h2 h5 (List.append_cancel_left h7)
      obtain rfl := List.append_cancel_left h8
      rw [(decimal_of h3).2.2.symm.trans (decimal_of h6).2.2]

theorem sampleLine_line {l : List Char} {s : Sample} (h : SampleLine l s) :
    '\n' ∉ l ∧ ∃ c t, l = c :: t ∧ c ≠ '#' ∧ c ≠ '\n' := by
  have hfirst : ∀ {n : List Char} (r : List Char), MetricName n → ∃ c t, n ++ r = c :: t ∧ c ≠ '#' ∧ c ≠ '\n' := by
    intro n r hn
    obtain ⟨c, t, rfl, _⟩ := hn.2
    refine ⟨c, t ++ r, rfl, ?_, ?_⟩ <;> rintro rfl
    · exact metricName_notin hn (by decide) (by decide) (by decide) (List.mem_cons_self)
    · exact metricName_notin hn (by decide) (by decide) (by decide) (List.mem_cons_self)
  cases h with
  | plain h1 h2 =>
    refine ⟨?_, ?_⟩
    · rw [blank_text]
      simp only [List.mem_append, List.mem_singleton, not_or]
      exact ⟨⟨metricName_notin h1 (by decide) (by decide) (by decide), by decide⟩, decimal_notin h2 (by decide)⟩
    · rw [List.append_assoc]
      exact hfirst _ h1
  | labelled h1 h2 h3 =>
    refine ⟨?_, ?_⟩
    · simp only [List.mem_append, not_or]
      exact ⟨⟨⟨⟨metricName_notin h1 (by decide) (by decide) (by decide), by decide⟩, label_line h2⟩, by decide⟩,
        decimal_notin h3 (by decide)⟩
    · simp only [List.append_assoc]
      exact hfirst _ h1

/-- A text in the Prometheus format can be read in one way only. -/
theorem exposition_unique {t : List Char} {ss : List Sample} (h : Exposition t ss) : ∀ {ss' : List Sample},
    Exposition t ss' → ss = ss' := by
  induction h with
  | nil =>
    intro ss' h'
    generalize hT : ([] : List Char) = T at h'
    cases h' with
    | nil => rfl
    | blank => cases hT
    | comment => simp at hT
    | sample => simp at hT
  | blank _ ih =>
    rename_i t ss _
    intro ss' h'
    generalize hT : '\n' :: t = T at h'
    cases h' with
    | nil => cases hT
    | blank h1 => injection hT with _ hT; subst hT; exact ih h1
    | comment => simp at hT
    | sample h1 =>
      obtain ⟨_, c, r, rfl, _, h2⟩ := sampleLine_line h1
      simp at hT
      exact absurd hT.1.symm h2
  | comment hl _ ih =>
    rename_i l t ss _
    intro ss' h'
    generalize hT : '#' :: l ++ '\n' :: t = T at h'
    cases h' with
    | nil => simp at hT
    | blank h1 => simp at hT
    | comment hl' h1 =>
      simp only [List.cons_append, List.cons.injEq, true_and] at hT
      obtain ⟨rfl, rfl⟩ := split_at hl hl' hT
      exact ih h1
    | sample h1 =>
      obtain ⟨_, c, r, rfl, h2, _⟩ := sampleLine_line h1
      simp at hT
      exact absurd hT.1.symm h2
  | sample hs _ ih =>
    rename_i l t s ss _
    intro ss' h'
    generalize hT : l ++ '\n' :: t = T at h'
    cases h' with
    | nil => simp at hT
    | blank h1 =>
      obtain ⟨_, c, r, rfl, _, h2⟩ := sampleLine_line hs
      simp at hT
      exact absurd hT.1 h2
    | comment hl' h1 =>
      obtain ⟨_, c, r, rfl, h2, _⟩ := sampleLine_line hs
      simp at hT
      exact absurd hT.1 h2
    | sample hs' h1 =>
      obtain ⟨rfl, rfl⟩ := split_at (sampleLine_line hs).1 (sampleLine_line hs').1 hT
      rw [sampleLine_unique hs hs', ih h1]

/-! ### The metrics -/

theorem decimal_toString (n : Nat) : Decimal (toString n).toList n :=
  decimal_iff.2 ⟨digits_ne n, List.all_eq_true.2 (digits_digit n), decimal_digits n⟩

/-- A name that needs no escapes. -/
def Spec.PlainName (n : List Char) : Prop := ∀ c ∈ n, c ≠ '"' ∧ c ≠ '\\' ∧ 32 ≤ c.toNat

theorem plain_label : ∀ {n : List Char}, PlainName n → LabelText n n
  | [], _ => .nil
  | c :: n, h => by
    obtain ⟨h1, h2, h3⟩ := h c (by simp)
    exact .raw h1 h2 (by rintro rfl; exact absurd h3 (by decide)) (plain_label fun x hx => h x (by simp [hx]))

theorem plain_json : ∀ {n : List Char}, PlainName n → JsonChars n n
  | [], _ => .nil
  | c :: n, h => by
    obtain ⟨h1, h2, h3⟩ := h c (by simp)
    exact .raw h3 h1 h2 (plain_json fun x hx => h x (by simp [hx]))

/-- The sample for the size of a word list. -/
def Spec.sizeSample (d : List Char × Nat) : Sample := ⟨"noodle_wordlist_size".toList, some d.1, d.2⟩

theorem size_line (name d rest : List Char) :
    "noodle_wordlist_size{wordlist=\"".toList ++ name ++ "\"} ".toList ++ d ++ ['\n'] ++ rest =
      ("noodle_wordlist_size".toList ++ "{wordlist=\"".toList ++ name ++ "\"} ".toList ++ d) ++ '\n' :: rest := by
  have e : "noodle_wordlist_size{wordlist=\"".toList = "noodle_wordlist_size".toList ++ "{wordlist=\"".toList := by decide
  rw [e]
  simp only [List.append_assoc, List.cons_append, List.nil_append]

theorem size_name : MetricName "noodle_wordlist_size".toList :=
  ⟨by decide, 'n', "oodle_wordlist_size".toList, by decide, by decide⟩

theorem sizes_exposition : ∀ {ds : Dicts}, (∀ d ∈ ds, PlainName d.1) →
    Exposition (ds.flatMap fun d => "noodle_wordlist_size{wordlist=\"".toList ++ d.1 ++ "\"} ".toList ++
      (toString d.2.length).toList ++ ['\n']) ((ds.map fun d => (d.1, d.2.length)).map sizeSample)
  | [], _ => .nil
  | d :: ds, h => by
    have h2 := sizes_exposition (ds := ds) fun x hx => h x (by simp [hx])
    rw [List.flatMap_cons, List.map_cons, List.map_cons]
    generalize List.flatMap _ ds = rest at h2
    rw [size_line]
    exact .sample (.labelled size_name (plain_label (h d (by simp))) (decimal_toString d.2.length)) h2

theorem metrics_exposition (a t : Nat) {ds : Dicts} (h : ∀ d ∈ ds, PlainName d.1) :
    Exposition (metricsText a t ds) (⟨"noodle_queries_active".toList, none, a⟩ :: ⟨"noodle_queries_total".toList, none, t⟩ ::
      (ds.map fun d => (d.1, d.2.length)).map sizeSample) := by
  have h0 := sizes_exposition h
  have h1 := Exposition.comment (l := " HELP noodle_wordlist_size".toList) (by decide)
    (Exposition.comment (l := " TYPE noodle_wordlist_size gauge".toList) (by decide) h0)
  have h2 := Exposition.sample (SampleLine.plain (n := "noodle_queries_total".toList)
    ⟨by decide, 'n', "oodle_queries_total".toList, by decide, by decide⟩ (decimal_toString t)) h1.blank
  have h3 := Exposition.comment (l := " HELP noodle_queries_total".toList) (by decide)
    (Exposition.comment (l := " TYPE noodle_queries_total counter".toList) (by decide) h2)
  have h4 := Exposition.sample (SampleLine.plain (n := "noodle_queries_active".toList)
    ⟨by decide, 'n', "oodle_queries_active".toList, by decide, by decide⟩ (decimal_toString a)) h3.blank
  have h5 := Exposition.comment (l := " HELP noodle_queries_active".toList) (by decide)
    (Exposition.comment (l := " TYPE noodle_queries_active gauge".toList) (by decide) h4)
  have e1 : "# HELP noodle_queries_active\n# TYPE noodle_queries_active gauge\nnoodle_queries_active ".toList =
      '#' :: " HELP noodle_queries_active".toList ++ '\n' :: ('#' :: " TYPE noodle_queries_active gauge".toList ++ '\n' ::
        ("noodle_queries_active".toList ++ " ".toList)) := by decide
  have e2 : "\n\n# HELP noodle_queries_total\n# TYPE noodle_queries_total counter\nnoodle_queries_total ".toList =
      '\n' :: '\n' :: ('#' :: " HELP noodle_queries_total".toList ++ '\n' :: ('#' :: " TYPE noodle_queries_total counter".toList ++ '\n' ::
        ("noodle_queries_total".toList ++ " ".toList))) := by decide
  have e3 : "\n\n# HELP noodle_wordlist_size\n# TYPE noodle_wordlist_size gauge\n".toList =
      '\n' :: '\n' :: ('#' :: " HELP noodle_wordlist_size".toList ++ '\n' ::
        ('#' :: " TYPE noodle_wordlist_size gauge".toList ++ ['\n'])) := by decide
  unfold metricsText
  rw [e1, e2, e3]
  simpa only [List.append_assoc, List.cons_append, List.nil_append] using h5

/-! ### Dictionaries -/

theorem get_mem : ∀ {ds : Dicts}, (ds.map Prod.fst).Nodup → ∀ {name : List Char} {ws : List Word},
    (name, ws) ∈ ds ↔ ds.get name = some ws
  | [], _, name, ws => by simp [Dicts.get]
  | (n, v) :: ds, h, name, ws => by
    rw [List.map_cons, List.nodup_cons] at h
    rw [Dicts.get, List.mem_cons, get_mem h.2]
    split
    · rename_i hn
      subst hn
      constructor
      · rintro (h1 | h1)
        · injection h1 with _ h1; rw [h1]
        · exact absurd (List.mem_map.2 ⟨_, (get_mem h.2).2 h1, rfl⟩) h.1
      · intro h1; injection h1 with h1; exact .inl (by rw [h1])
    · rename_i hn
      constructor
      · rintro (h1 | h1)
        · injection h1 with h1 _; exact absurd h1.symm hn
        · exact h1
      · exact .inr

theorem get_none {ds : Dicts} {name : List Char} (h : ds.get name = none) : name ∉ ds.map Prod.fst := by
  induction ds with
  | nil => simp
  | cons d ds ih =>
    obtain ⟨n, v⟩ := d
    rw [Dicts.get] at h
    split at h
    · cases h
    · rename_i hn
      simp only [List.map_cons, List.mem_cons, not_or]
      exact ⟨fun h => hn h.symm, ih h⟩

theorem loadDir_nodup (U : Unicode) : ∀ (dir : List DirEntry) {ds : Dicts}, (ds.map Prod.fst).Nodup →
    ((loadDir U ds dir).map Prod.fst).Nodup
  | [], ds, h => h
  | e :: dir, ds, h => by
    unfold loadDir
    split
    · exact loadDir_nodup U dir h
    · split
      · exact loadDir_nodup U dir h
      · rename_i hn
        refine loadDir_nodup U dir ?_
        rw [List.map_append, List.map_singleton]
        exact List.nodup_append.2 ⟨h, by simp, fun a ha b hb => by
          rw [List.mem_singleton] at hb
          subst hb
          rintro rfl
          exact get_none hn ha⟩

theorem loaded_mem {U : Unicode} {dir : List DirEntry} {ds : Dicts} (hp : ds.Perm (loadDir U [] dir)) (name : List Char)
    (ws : List Word) : (name, ws) ∈ ds ↔ HasDict U dir name ws := by
  rw [hp.mem_iff, get_mem (loadDir_nodup U dir (by simp)), C40_dictionaries]

theorem loaded_names {U : Unicode} {dir : List DirEntry} {ds : Dicts} (hp : ds.Perm (loadDir U [] dir)) :
    ((ds.map fun d => (d.1, d.2.length)).map Prod.fst).Nodup := by
  have := (hp.map Prod.fst).nodup_iff.2 (loadDir_nodup U dir (by simp))
  rwa [List.map_map]

/-- The names of all dictionaries need no escapes. -/
def Spec.PlainDir (dir : List DirEntry) : Prop := ∀ e ∈ dir, PlainName e.file

theorem plain_loaded {U : Unicode} {dir : List DirEntry} (h : PlainDir dir) {ds : Dicts}
    (hp : ds.Perm (loadDir U [] dir)) : ∀ d ∈ ds, PlainName d.1 := by
  rintro ⟨name, ws⟩ hd
  obtain ⟨a, e, b, rfl, _, hs, _⟩ := (loaded_mem hp name ws).1 hd
  intro c hc
  refine h e (by simp) c ?_
  rcases hs.2 with h1 | ⟨r, h1⟩ <;> simp [h1, hc]

/-- C53: what a monitor reads on `/metrics`, if the names of the dictionaries need no escapes: the two counters, and for
each dictionary, once, the number of its words; and nothing else. `ds` is the map of dictionaries in any order. -/
theorem C53_metrics {U : Unicode} {dir : List DirEntry} (hd : PlainDir dir) {ds : Dicts}
    (hp : ds.Perm (loadDir U [] dir)) (active total : Nat) :
    ∃ sizes : List (List Char × Nat),
      (∀ ss, Exposition (metricsText active total ds) ss ↔
        ss = ⟨"noodle_queries_active".toList, none, active⟩ :: ⟨"noodle_queries_total".toList, none, total⟩ ::
          sizes.map fun s => ⟨"noodle_wordlist_size".toList, some s.1, s.2⟩) ∧
      (sizes.map Prod.fst).Nodup ∧
      ∀ name n, (name, n) ∈ sizes ↔ ∃ ws, HasDict U dir name ws ∧ ws.length = n := by
  have h1 := metrics_exposition active total (plain_loaded hd hp)
  refine ⟨ds.map fun (d : List Char × List Word) => (d.1, d.2.length), fun ss => ⟨fun h => (exposition_unique h1 h).symm, fun h => ?_⟩,
    loaded_names hp, fun name n => ?_⟩
  · subst h; exact h1
  simp only [List.mem_map, Prod.mk.injEq, Prod.exists]
  constructor
  · rintro ⟨_, ws, h, rfl, rfl⟩
    exact ⟨ws, (loaded_mem hp _ _).1 h, rfl⟩
  · rintro ⟨ws, h, rfl⟩
    exact ⟨name, ws, (loaded_mem hp _ _).2 h, rfl, rfl⟩

/-- The first line of a text in the Prometheus format, and the rest. -/
theorem exposition_line {a t : List Char} {ss : List Sample} (ha : '\n' ∉ a) (h : Exposition (a ++ '\n' :: t) ss) :
    (∃ ss', Exposition t ss') ∧ (a = [] ∨ (∃ r, a = '#' :: r) ∨ ∃ s, SampleLine a s) := by
  generalize hT : a ++ '\n' :: t = T at h
  cases h with
  | nil => simp at hT
  | blank h =>
    obtain ⟨rfl, rfl⟩ := split_at (b := []) ha (by simp) hT
    exact ⟨⟨_, h⟩, .inl rfl⟩
  | comment hl h =>
    obtain ⟨rfl, rfl⟩ := split_at ha (by simp [hl]) hT
    exact ⟨⟨_, h⟩, .inr (.inl ⟨_, rfl⟩)⟩
  | sample hs h =>
    obtain ⟨rfl, rfl⟩ := split_at ha (sampleLine_line hs).1 hT
    exact ⟨⟨_, h⟩, .inr (.inr ⟨_, hs⟩)⟩

theorem exposition_rest : ∀ (n : Nat) {pre t : List Char} {ss : List Sample}, pre.length ≤ n →
    Exposition (pre ++ '\n' :: t) ss → ∃ ss', Exposition t ss'
  | 0, pre, t, ss, hn, h => by
    obtain rfl := List.length_eq_zero_iff.1 (Nat.le_zero.1 hn)
    exact (exposition_line (by simp) h).1
  | n + 1, pre, t, ss, hn, h => by
    by_cases hp : '\n' ∈ pre
    · obtain ⟨a, b, rfl, ha⟩ := List.eq_append_cons_of_mem hp
      rw [List.append_assoc, List.cons_append] at h
      obtain ⟨ss', h'⟩ := (exposition_line ha h).1
      exact exposition_rest n (by simp at hn; omega) h'
    · exact (exposition_line hp h).1

theorem quote_name_bad (s : Sample) : ¬ SampleLine "noodle_wordlist_size{wordlist=\"a\"b\"} 0".toList s := by
  have e : "noodle_wordlist_size{wordlist=\"a\"b\"} 0".toList =
      "noodle_wordlist_size".toList ++ '{' :: ("wordlist=\"".toList ++ (['a'] ++ '"' :: "b\"} 0".toList)) := by decide
  intro h
  rw [e] at h
  generalize hL : "noodle_wordlist_size".toList ++ '{' :: ("wordlist=\"".toList ++ (['a'] ++ '"' :: "b\"} 0".toList)) = L at h
  cases h with
  | plain h1 h2 =>
    have h6 : '{' ∈ "noodle_wordlist_size".toList ++ '{' :: ("wordlist=\"".toList ++ (['a'] ++ '"' :: "b\"} 0".toList)) := by
      decide
    rw [hL, blank_text] at h6
    simp only [List.mem_append, List.mem_singleton] at h6
    rcases h6 with (h6 | h6) | h6
    · exact metricName_notin h1 (by decide) (by decide) (by decide) h6
    · cases h6
    · exact decimal_notin h2 (by decide) h6
  | labelled h1 h2 h3 =>
    rw [label_open, label_close] at hL
    simp only [List.append_assoc, List.cons_append] at hL
    obtain ⟨rfl, h7⟩ := split_at (metricName_notin size_name (by decide) (by decide) (by decide))
      (metricName_notin h1 (by decide) (by decide) (by decide)) hL
    obtain ⟨_, h8⟩ := label_unique (LabelText.raw (c := 'a') (by decide) (by decide) (by decide) .nil) h2
      (List.append_cancel_left h7)
    have h9 := congrArg List.head? h8
    rw [show "} ".toList = '}' :: [' '] by decide] at h9
    exact absurd h9 (by rw [List.cons_append, List.head?_cons]; decide)

/-- C53: otherwise the page may be unreadable: names are not escaped. -/
theorem C53_counterexample : loadDir asciiUnicode [] [⟨"a\"b".toList, true, []⟩] = [("a\"b".toList, [])] ∧
    ∀ active total ss, ¬ Exposition (metricsText active total [("a\"b".toList, [])]) ss := by
  refine ⟨by
    have : loadWordlist asciiUnicode [] = [] := by
      simp [loadWordlist, fileLines, loadLines, sortWords]
    simp [loadDir, Dicts.get, this]
    decide, fun a t ss h => ?_⟩
  have e : ∃ pre, metricsText a t [("a\"b".toList, [])] =
      pre ++ '\n' :: ("noodle_wordlist_size{wordlist=\"a\"b\"} 0".toList ++ '\n' :: []) := by
    refine ⟨"# HELP noodle_queries_active\n# TYPE noodle_queries_active gauge\nnoodle_queries_active ".toList ++
        (toString a).toList ++
        "\n\n# HELP noodle_queries_total\n# TYPE noodle_queries_total counter\nnoodle_queries_total ".toList ++
        (toString t).toList ++ "\n\n# HELP noodle_wordlist_size\n# TYPE noodle_wordlist_size gauge".toList, ?_⟩
    · unfold metricsText
      rw [List.flatMap_cons, List.flatMap_nil]
      have e1 : "\n\n# HELP noodle_wordlist_size\n# TYPE noodle_wordlist_size gauge\n".toList =
        "\n\n# HELP noodle_wordlist_size\n# TYPE noodle_wordlist_size gauge".toList ++ ['\n'] := by decide
      rw [e1]
      simp only [List.append_assoc]
      rfl
  obtain ⟨pre, e⟩ := e
  rw [e] at h
  obtain ⟨ss', h'⟩ := exposition_rest _ (Nat.le_refl _) h
  rcases (exposition_line (by decide) h').2 with h1 | ⟨r, h1⟩ | ⟨s, h1⟩
  · exact absurd h1 (by decide)
  · exact absurd (congrArg List.head? h1) (by rw [List.head?_cons]; decide)
  · exact quote_name_bad s h1

/-! ### The script -/

theorem pushLines_unique {t : List Char} {r : List (List Char × Nat)} (h : PushLines t r) :
    ∀ {r' : List (List Char × Nat)}, PushLines t r' → r = r' := by
  have hq : "\", \"len\": ".toList = '"' :: ", \"len\": ".toList := by decide
  have hb : "});\n".toList = '}' :: ");\n".toList := by decide
  induction h with
  | nil =>
    intro r' h'
    generalize hT : ([] : List Char) = T at h'
    cases h' with
    | nil => rfl
    | cons => simp at hT
  | cons h1 h2 _ ih =>
    rename_i e name ds t n r _
    intro r' h'
    generalize hT : "window.WORDLISTS.push({\"name\": \"".toList ++ e ++ "\", \"len\": ".toList ++ ds ++ "});\n".toList ++ t = T at h'
    cases h' with
    | nil => simp at hT
    | cons h3 h4 h5 =>
      rw [hq, hb] at hT
      simp only [List.append_assoc, List.cons_append] at hT
      obtain ⟨_, rfl, h6⟩ := jsonChars_unique h1 h3 (List.append_cancel_left hT)
      obtain ⟨rfl, h7⟩ := split_at (x := '}') (decimal_notin h2 (by decide)) (decimal_notin h4 (by decide))
        (List.append_cancel_left h6)
      obtain rfl := List.append_cancel_left h7
      rw [ih h5, (decimal_of h2).2.2.symm.trans (decimal_of h4).2.2]

theorem pushLines_spec : ∀ {ds : Dicts}, (∀ d ∈ ds, PlainName d.1) →
    PushLines (ds.flatMap fun d => "window.WORDLISTS.push({\"name\": \"".toList ++ d.1 ++ "\", \"len\": ".toList ++
      (toString d.2.length).toList ++ "});\n".toList) (ds.map fun d => (d.1, d.2.length))
  | [], _ => .nil
  | d :: ds, h => by
    rw [List.flatMap_cons, List.map_cons]
    exact .cons (plain_json (h d (by simp))) (decimal_toString d.2.length)
      (pushLines_spec (ds := ds) fun x hx => h x (by simp [hx]))

/-- C53: what the page of the user interface gets from `/wordlists.js`, if the names of the dictionaries need no escapes:
for each dictionary, once, its name and the number of its words. -/
theorem C53_script {U : Unicode} {dir : List DirEntry} (hd : PlainDir dir) {ds : Dicts}
    (hp : ds.Perm (loadDir U [] dir)) :
    ∃ sizes : List (List Char × Nat), (∀ r, ListsScript (wordlistJs ds) r ↔ r = sizes) ∧ (sizes.map Prod.fst).Nodup ∧
      ∀ name n, (name, n) ∈ sizes ↔ ∃ ws, HasDict U dir name ws ∧ ws.length = n := by
  have h1 := pushLines_spec (plain_loaded hd hp)
  refine ⟨ds.map fun d => (d.1, d.2.length), fun r => ⟨?_, ?_⟩, loaded_names hp, fun name n => ?_⟩
  · rintro ⟨t, h2, h3⟩
    obtain rfl := List.append_cancel_left h2
    exact (pushLines_unique h1 h3).symm
  · rintro rfl
    exact ⟨_, rfl, h1⟩
  simp only [List.mem_map, Prod.mk.injEq, Prod.exists]
  constructor
  · rintro ⟨_, ws, h, rfl, rfl⟩
    exact ⟨ws, (loaded_mem hp _ _).1 h, rfl⟩
  · rintro ⟨ws, h, rfl⟩
    exact ⟨name, ws, (loaded_mem hp _ _).2 h, rfl, rfl⟩

/-! ### The counters at any moment -/

theorem interleaved_single {α : Type} {ls : List (List α)} {l : List α} (h : Interleaved ls l) :
    ∀ {A B : List (List α)} {x : List α}, ls = A ++ x :: B → (∀ a ∈ A, a = []) → (∀ b ∈ B, b = []) → l = x := by
  induction h with
  | done h =>
    intro A B x he _ _
    exact (h x (by rw [he]; simp)).symm
  | step _ ih =>
    rename_i ls ms c l r _
    intro A B x he hA hB
    rcases List.append_eq_append_iff.1 he with ⟨a', h1, h2⟩ | ⟨a', h1, h2⟩
    · cases a' with
      | nil =>
        rw [List.nil_append] at h2
        injection h2 with h2 h3
        subst h2 h3
        rw [List.append_nil] at h1
        subst h1
        rw [ih rfl hA hB]
      | cons y a' =>
        injection h2 with h2 h3
        exact absurd (hA y (by rw [h1]; simp)) (by rw [← h2]; simp)
    · cases a' with
      | nil =>
        rw [List.nil_append] at h2
        injection h2 with h2 h3
        subst h2 h3
        rw [List.append_nil] at h1
        subst h1
        rw [ih rfl hA hB]
      | cons y a' =>
        injection h2 with h2 h3
        exact absurd (hB (c :: l) (by rw [h3]; simp)) (by simp)

theorem interleaved_filter {α : Type} (P : α → Bool) {ls : List (List α)} {l : List α} (h : Interleaved ls l) :
    Interleaved (ls.map (List.filter P)) (l.filter P) := by
  induction h with
  | done h => exact .done (by
      intro x hx
      obtain ⟨y, hy, rfl⟩ := List.mem_map.1 hx
      rw [h y hy]
      rfl)
  | step _ ih =>
    rename_i x l r _
    rw [List.map_append, List.map_cons] at ih ⊢
    by_cases hp : P x = true
    · rw [List.filter_cons_of_pos hp, List.filter_cons_of_pos hp]
      exact .step ih
    · rw [List.filter_cons_of_neg hp, List.filter_cons_of_neg hp]
      exact ih

theorem numbered_get {rs : List (List Act)} {l : List (Nat × Act)} (h : Interleaved (numbered rs) l) {i : Nat}
    {acts : List Act} (hi : rs[i]? = some acts) : l.filter (fun x => x.1 == i) = acts.map fun a => (i, a) := by
  have h1 := interleaved_filter (fun x : Nat × Act => x.1 == i) h
  obtain ⟨hlt, rfl⟩ := List.getElem?_eq_some_iff.1 hi
  have hs : rs.zipIdx = (rs.take i).zipIdx ++ (rs[i], i) :: (rs.drop (i + 1)).zipIdx (i + 1) := by
    conv_lhs => rw [← List.take_append_drop i rs, List.drop_eq_getElem_cons hlt]
    rw [List.zipIdx_append, List.zipIdx_cons]
    simp [List.length_take, Nat.min_eq_left (Nat.le_of_lt hlt)]
  have hother : ∀ (j : Nat) (a : List Act), j ≠ i → (a.map fun x => (j, x)).filter (fun x => x.1 == i) = [] := by
    intro j a hj
    rw [List.filter_eq_nil_iff]
    intro x hx
    obtain ⟨y, _, rfl⟩ := List.mem_map.1 hx
    simpa using hj
  have hsame : ((rs[i]).map fun x => (i, x)).filter (fun x => x.1 == i) = (rs[i]).map fun x => (i, x) := by
    rw [List.filter_eq_self]
    intro x hx
    obtain ⟨y, _, rfl⟩ := List.mem_map.1 hx
    simp
  rw [numbered, hs, List.map_append, List.map_append, List.map_cons, List.map_cons] at h1
  dsimp only at h1
  rw [hsame] at h1
  refine interleaved_single h1 rfl ?_ ?_
  · intro a ha
    rw [List.map_map] at ha
    obtain ⟨⟨b, j⟩, hb, rfl⟩ := List.mem_map.1 ha
    refine hother j b ?_
    have := List.snd_lt_of_mem_zipIdx hb
    simp at this
    omega
  · intro a ha
    rw [List.map_map] at ha
    obtain ⟨⟨b, j⟩, hb, rfl⟩ := List.mem_map.1 ha
    refine hother j b ?_
    have := List.le_snd_of_mem_zipIdx hb
    omega

theorem numbered_lt {rs : List (List Act)} {l : List (Nat × Act)} (h : Interleaved (numbered rs) l) :
    ∀ x ∈ l, x.1 < rs.length := by
  have key : ∀ {ls : List (List (Nat × Act))} {l : List (Nat × Act)}, Interleaved ls l → ∀ x ∈ l, ∃ m ∈ ls, x ∈ m := by
    intro ls l h
    induction h with
    | done => intro x hx; cases hx
    | step _ ih =>
      rename_i ls ms c l r _
      intro x hx
      rcases List.mem_cons.1 hx with rfl | hx
      · exact ⟨x :: l, by simp, List.mem_cons_self⟩
      · obtain ⟨m, hm, hx⟩ := ih x hx
        rcases List.mem_append.1 hm with hm | hm
        · exact ⟨m, by simp [hm], hx⟩
        · rcases List.mem_cons.1 hm with rfl | hm
          · exact ⟨c :: m, by simp, by simp [hx]⟩
          · exact ⟨m, by simp [hm], hx⟩
  intro x hx
  obtain ⟨m, hm, hx⟩ := key h x hx
  obtain ⟨⟨a, j⟩, ha, rfl⟩ := List.mem_map.1 hm
  obtain ⟨y, _, rfl⟩ := List.mem_map.1 hx
  have := List.snd_lt_of_mem_zipIdx ha
  simpa using this

/-- The updates in `p` of each request. -/
theorem gauge_split (n : Nat) : ∀ (p : List (Nat × Act)), (∀ x ∈ p, x.1 < n) →
    gauge (p.map Prod.snd) = ((List.range n).map fun i => gauge ((p.filter (fun x => x.1 == i)).map Prod.snd)).sum ∧
    counted (p.map Prod.snd) = ((List.range n).map fun i => counted ((p.filter (fun x => x.1 == i)).map Prod.snd)).sum
  | [], _ => by
    constructor
    · simp [gauge]
    · simp [counted]
  | (j, a) :: p, h => by
    obtain ⟨h1, h2⟩ := gauge_split n p fun x hx => h x (by simp [hx])
    have hj : j < n := h (j, a) (by simp)
    have hs : ∀ (i : Nat), ((j, a) :: p).filter (fun x => x.1 == i) =
        (if i = j then [(j, a)] else []) ++ p.filter (fun x => x.1 == i) := by
      intro i
      by_cases hi : i = j
      · subst hi; simp
      · rw [List.filter_cons_of_neg (by simpa using fun h => hi h.symm), if_neg hi, List.nil_append]
    have hcnt : ∀ (l m : List Act), counted (l ++ m) = counted l + counted m := by
      intro l m; simp [counted]
    have hg : ∀ (f : List Act → Int), f [] = 0 → ((List.range n).map fun i =>
        f ((if i = j then [(j, a)] else []).map Prod.snd)).sum = f [a] := by
      intro f hf
      have : ((List.range n).map fun i => f (((if i = j then [(j, a)] else []) : List (Nat × Act)).map Prod.snd)) =
          (List.range n).map fun i => if i = j then f [a] else 0 := by
        apply List.map_congr_left
        intro i _
        by_cases hi : i = j
        · simp [hi]
        · simp [hi, hf]
      rw [this]
      clear this hs h h1 h2
      induction n with
      | zero => omega
      | succ n ih =>
        rw [List.range_succ, List.map_append, List.sum_append]
        by_cases hjn : j = n
        · subst hjn
          have : (List.range j).map (fun i => if i = j then f [a] else 0) = (List.range j).map fun _ => (0 : Int) := by
            apply List.map_congr_left
            intro i hi
            rw [List.mem_range] at hi
            rw [if_neg (by omega)]
          rw [this]
          simp
        · rw [ih (by omega)]
          simp [Ne.symm hjn]
    have hsum : ∀ (f g : Nat → Int), ((List.range n).map fun i => f i + g i).sum =
        ((List.range n).map f).sum + ((List.range n).map g).sum := by
      intro f g
      induction List.range n with
      | nil => rfl
      | cons x l ih =>
        simp only [List.map_cons, List.sum_cons, ih]
        omega
    constructor
    · simp only [hs, List.map_append, gauge_append]
      rw [hsum, hg gauge rfl, ← h1, List.map_cons, ← gauge_append]
      rfl
    · have h3 : ((List.range n).map fun i => (counted ((((j, a) :: p).filter (fun x => x.1 == i)).map Prod.snd) : Int)).sum =
          (counted [a] : Int) + ((List.range n).map fun i => (counted ((p.filter (fun x => x.1 == i)).map Prod.snd) : Int)).sum := by
        simp only [hs, List.map_append, hcnt]
        push_cast
        rw [hsum, hg (fun l => (counted l : Int)) rfl]
      have h4 : ∀ (f : Nat → Nat), ((List.range n).map fun i => (f i : Int)).sum = (((List.range n).map f).sum : Nat) := by
        intro f
        induction List.range n with
        | nil => rfl
        | cons x l ih => simp [ih]
      rw [h4, h4, ← h2] at h3
      have h5 : counted (((j, a) :: p).map Prod.snd) = counted [a] + counted (p.map Prod.snd) := by
        rw [List.map_cons, ← hcnt]
        rfl
      omega

theorem prefix_acts {a : List Act} (h : a <+: [.count, .start, .stop]) :
    a = [] ∨ a = [.count] ∨ a = [.count, .start] ∨ a = [.count, .start, .stop] := by
  rw [List.prefix_iff_eq_take] at h
  rw [h]
  match a.length with
  | 0 => simp
  | 1 => simp
  | 2 => simp
  | n + 3 => simp

/-- C53: at any moment, whatever the interleaving of the requests, the gauge of active queries is the number of the
requests in progress; and the counter of all queries is the number of requests that have come in. A request that fails
stays in progress, see C38. -/
theorem C53_counters {U : Unicode} {ds : Dicts} {rs : List (List Act × HandlerEnd)} (h : ∀ r ∈ rs, Request U ds r.1 r.2)
    {l p : List (Nat × Act)} (hl : Interleaved (numbered (rs.map Prod.fst)) l) (hp : p <+: l) :
    gauge (p.map Prod.snd) = ((List.range rs.length).countP fun i => decide (InProgress p i) : Nat) ∧
    counted (p.map Prod.snd) = (List.range rs.length).countP (fun i => decide ((i, Act.count) ∈ p)) ∧
    ∀ i, (i, Act.start) ∈ p → (i, Act.count) ∈ p := by
  have hlt : ∀ x ∈ p, x.1 < rs.length := by
    intro x hx
    have := numbered_lt hl x (hp.subset hx)
    simpa using this
  obtain ⟨h1, h2⟩ := gauge_split rs.length p hlt
  have key : ∀ i, i < rs.length → ∃ a, p.filter (fun x => x.1 == i) = a.map (fun x => (i, x)) ∧
      (a = [] ∨ a = [.count] ∨ a = [.count, .start] ∨ a = [.count, .start, .stop]) := by
    intro i hi
    have h3 := numbered_get hl (i := i) (acts := (rs[i]).1) (by simp [hi])
    have h4 : p.filter (fun x => x.1 == i) <+: ((rs[i]).1).map fun a => (i, a) := by
      rw [← h3]; exact hp.filter _
    obtain ⟨a, ha, h5⟩ := List.prefix_map_iff.1 h4
    refine ⟨a, h5, ?_⟩
    rcases request_acts (h rs[i] (List.getElem_mem hi)) with h6 | ⟨_, h6⟩ | ⟨_, h6⟩ <;> rw [h6] at ha
    · exact .inl (List.prefix_nil.1 ha)
    · exact prefix_acts ha
    · rcases prefix_acts (ha.trans ⟨[.stop], rfl⟩) with h7 | h7 | h7 | h7
      · exact .inl h7
      · exact .inr (.inl h7)
      · exact .inr (.inr (.inl h7))
      · exact .inr (.inr (.inr h7))
  have hmem : ∀ (i : Nat) (a : List Act), p.filter (fun x => x.1 == i) = a.map (fun x => (i, x)) → ∀ x, (i, x) ∈ p ↔ x ∈ a := by
    intro i a ha x
    have : (i, x) ∈ p ↔ (i, x) ∈ p.filter (fun x => x.1 == i) := by simp
    rw [this, ha]
    simp
  refine ⟨?_, ?_, ?_⟩
  · rw [h1]
    have hc : ∀ (l : List Nat) (f : Nat → Int) (P : Nat → Bool), (∀ i ∈ l, f i = if P i then 1 else 0) →
        (l.map f).sum = (l.countP P : Nat) := by
      intro l f P hf
      induction l with
      | nil => rfl
      | cons x l ih =>
        rw [List.map_cons, List.sum_cons, ih fun i hi => hf i (by simp [hi]), hf x (by simp), List.countP_cons]
        by_cases hx : P x <;> simp [hx] <;> omega
    apply hc
    intro i hi
    obtain ⟨a, ha, hc⟩ := key i (List.mem_range.1 hi)
    have hm := hmem i a ha
    rw [ha, List.map_map]
    simp only [InProgress, hm]
    rcases hc with rfl | rfl | rfl | rfl <;> simp [gauge]
  · rw [h2]
    have hc : ∀ (l : List Nat) (f : Nat → Nat) (P : Nat → Bool), (∀ i ∈ l, f i = if P i then 1 else 0) →
        (l.map f).sum = l.countP P := by
      intro l f P hf
      induction l with
      | nil => rfl
      | cons x l ih =>
        rw [List.map_cons, List.sum_cons, ih fun i hi => hf i (by simp [hi]), hf x (by simp), List.countP_cons]
        by_cases hx : P x <;> simp [hx] <;> omega
    apply hc
    intro i hi
    obtain ⟨a, ha, hc⟩ := key i (List.mem_range.1 hi)
    have hm := hmem i a ha
    rw [ha, List.map_map]
    simp only [hm]
    rcases hc with rfl | rfl | rfl | rfl <;> simp [counted]
  · intro i hi
    obtain ⟨a, ha, hc⟩ := key i (hlt _ hi)
    have hm := hmem i a ha
    rw [hm] at hi ⊢
    rcases hc with rfl | rfl | rfl | rfl <;> simp_all

/-- C53: a page of metrics, made from the gauge at one moment and the counter at a later one, never shows more active
queries than queries. -/
theorem C53_consistent {U : Unicode} {ds : Dicts} {rs : List (List Act × HandlerEnd)} (h : ∀ r ∈ rs, Request U ds r.1 r.2)
    {l p p' : List (Nat × Act)} (hl : Interleaved (numbered (rs.map Prod.fst)) l) (hp : p <+: p') (hp' : p' <+: l) :
    0 ≤ gauge (p.map Prod.snd) ∧ gauge (p.map Prod.snd) ≤ counted (p'.map Prod.snd) := by
  obtain ⟨h1, _, h3⟩ := C53_counters h hl (hp.trans hp')
  obtain ⟨_, h2, _⟩ := C53_counters h hl hp'
  rw [h1, h2]
  refine ⟨by simp, ?_⟩
  rw [Int.ofNat_le]
  apply List.countP_mono_left
  intro i _ hi
  simp only [decide_eq_true_eq] at hi ⊢
  exact hp.subset (h3 i hi.1)

/-- C53: the number that a web socket is told first is the number of the other requests in progress at the moment when
it begins: it is the value of the gauge before its own update. -/
theorem C53_others {U : Unicode} {ds : Dicts} {rs : List (List Act × HandlerEnd)} (h : ∀ r ∈ rs, Request U ds r.1 r.2)
    {l p : List (Nat × Act)} {i : Nat} (hl : Interleaved (numbered (rs.map Prod.fst)) l) (hp : p ++ [(i, .start)] <+: l) :
    gauge (p.map Prod.snd) = ((List.range rs.length).countP fun j => decide (j ≠ i ∧ InProgress p j) : Nat) := by
  obtain ⟨h1, _, _⟩ := C53_counters h hl ((List.prefix_append _ _).trans hp)
  have hni : (i, Act.start) ∉ p := by
    intro hm
    have hlt := numbered_lt hl (i, .start) (hp.subset (by simp))
    rw [List.length_map] at hlt
    have h3 := numbered_get hl (i := i) (acts := (rs[i]).1) (by simp [hlt])
    have h4 := (hp.filter (fun x => x.1 == i)).sublist.count_le (i, Act.start)
    rw [h3, List.filter_append, List.count_append] at h4
    have h5 : 1 ≤ (p.filter (fun x => x.1 == i)).count (i, Act.start) :=
      List.one_le_count_iff.2 (by simp [hm])
    have h6 : ((rs[i].1).map fun a => (i, a)).count (i, Act.start) ≤ 1 := by
      rcases request_acts (h rs[i] (List.getElem_mem hlt)) with h6 | ⟨_, h6⟩ | ⟨_, h6⟩ <;> rw [h6] <;> simp
    rw [List.filter_cons_of_pos (by simp), List.filter_nil, List.count_singleton_self] at h4
    omega
  rw [h1, Int.ofNat_inj]
  apply List.countP_congr
  intro j _
  simp only [decide_eq_true_eq]
  constructor
  · intro hj
    refine ⟨?_, hj⟩
    rintro rfl
    exact hni hj.1
  · exact fun hj => hj.2

/-- C53: and this is the number it is told. -/
theorem C53_told (F : Floats) (P : Prints) (U : Unicode) (ds : Dicts) (m : Option (List Char)) (sends : Option Nat) (others : Nat)
    (ticks : List Tick) (hs : sends ≠ some 0) :
    (wsRun F P U ds (some m) sends others ticks).2.1.head? = some (.begun others) := by
  have h1 : (wsTalk F P U ds m others ticks).1.head? = some (.begun others) := by
    unfold wsTalk
    split
    · rfl
    · split
      · rfl
      · rfl
      · split
        · rfl
        · split <;> rfl
  simp only [wsRun]
  cases sends with
  | none => exact h1
  | some n =>
    dsimp only
    split
    · dsimp only
      rw [List.head?_take, if_neg (by rintro rfl; exact hs rfl), h1]
    · exact h1

/-! ### C54: the word lists served -/

/-- The text of a word list: the text of each word, and the end of the line. -/
def Spec.listText (wl : List Word) : List Char := (wl.map fun w => w.text.toList ++ ['\n']).flatten

/-- C54: what is served as a word list is the text of the dictionary with the name, or of the dictionary `default` if there
is none with the name; it fails iff there is neither. -/
theorem C54_served (U : Unicode) (dir : List DirEntry) (name : List Char) :
    (∀ wl, HasDict U dir name wl → getWordlist (loadDir U [] dir) name = .ok (listText wl)) ∧
    ((∀ ws, ¬ HasDict U dir name ws) → ∀ wl, HasDict U dir "default".toList wl →
      getWordlist (loadDir U [] dir) name = .ok (listText wl)) ∧
    ((∃ c, getWordlist (loadDir U [] dir) name = .error c) ↔
      (∀ ws, ¬ HasDict U dir name ws) ∧ ∀ ws, ¬ HasDict U dir "default".toList ws) := by
  unfold getWordlist dictWords listText
  simp only [List.flatMap]
  rw [← get_none_iff, ← get_none_iff]
  simp only [← C40_dictionaries]
  show _ ∧ (_ → ∀ wl, Dicts.get _ defaultName = some wl → _) ∧ (_ ↔ _ ∧ Dicts.get _ defaultName = none)
  cases Dicts.get (loadDir U [] dir) name <;> cases Dicts.get (loadDir U [] dir) defaultName <;> simp [Except.map]

theorem listText_lines : ∀ {wl : List Word}, (∀ w ∈ wl, '\n' ∉ w.text.toList ∧ w.text.toList.getLast? ≠ some '\r') →
    FileLines (listText wl) (wl.map fun w => w.text.toList)
  | [], _ => .nil
  | w :: wl, h => by
    have h1 := h w (by simp)
    have h2 := FileLines.unix h1.1 h1.2 (listText_lines (wl := wl) fun x hx => h x (by simp [hx]))
    rw [List.map_cons]
    have : listText (w :: wl) = w.text.toList ++ '\n' :: listText wl := by simp [listText]
    rw [this]
    exact h2

theorem fileLines_newline {t : List Char} {ls : List (List Char)} (h : FileLines t ls) : ∀ l ∈ ls, '\n' ∉ l := by
  induction h with
  | nil => simp
  | last _ h => intro l hl; rw [List.mem_singleton] at hl; subst hl; exact h
  | unix h _ _ ih =>
    intro l hl
    rcases List.mem_cons.1 hl with rfl | hl
    · exact h
    · exact ih l hl
  | dos h _ ih =>
    intro l hl
    rcases List.mem_cons.1 hl with rfl | hl
    · exact h
    · exact ih l hl

theorem lineIs_newline {l text : List Char} {n : Nat} (h : LineIs l text n) (hl : '\n' ∉ l) : '\n' ∉ text := by
  cases h with
  | counted => simp at hl; exact hl.2
  | plain => exact hl

theorem entries_texts {U : Unicode} {ls : List (List Char)} {es : List (List Char × Nat)} (h : Entries U ls es) :
    (∀ l ∈ ls, '\n' ∉ l) → ∀ e ∈ es, Spec.Keeps U e.1 ∧ '\n' ∉ e.1 := by
  induction h with
  | nil => simp
  | keep h1 h2 _ ih =>
    intro hl e he
    rcases List.mem_cons.1 he with rfl | he
    · exact ⟨h2, lineIs_newline h1 (hl _ (by simp))⟩
    · exact ih (fun l h => hl l (by simp [h])) e he
  | skip _ _ _ ih => intro hl; exact ih fun l h => hl l (by simp [h])

theorem loaded_entries {U : Unicode} {text : List Char} {w : Word} (h : w ∈ loadWordlist U text) :
    Spec.Keeps U w.text.toList ∧ '\n' ∉ w.text.toList ∧ w.chars = normalise U w.text.toList := by
  obtain ⟨ls, es, ws, h1, h2, h3, h4, h5, _⟩ := C03_load U text
  obtain ⟨k, hk⟩ := List.mem_iff_getElem?.1 (h5.mem_iff.1 h)
  have hlt : k < es.length := by rw [← h3]; exact (List.getElem?_eq_some_iff.1 hk).1
  obtain ⟨w', hw', t, _, _, e1, _, e2, _⟩ := h4 k es[k] (List.getElem?_eq_getElem hlt)
  obtain rfl := Option.some.inj (hk.symm.trans hw')
  obtain ⟨k1, k2⟩ := entries_texts h2 (fileLines_newline h1) es[k] (List.getElem_mem hlt)
  rw [e1, String.toList_ofList]
  exact ⟨k1, k2, e2⟩

/-- A line that is a text without digits is read as this text. -/
theorem plain_line {U : Unicode} {t : List Char} (h : Spec.Keeps U t) :
    LineIs t t (200 * (t.map Char.utf8Size).sum % 2 ^ 32) := by
  refine .plain ?_
  rintro ⟨col, text, n, rfl, _, ⟨hd, _⟩⟩
  have key : ∀ {l : List Char}, Decimal l n → (∀ c ∈ l, c ∈ col) → False := by
    intro l hl hs
    obtain ⟨h1, h2, _⟩ := decimal_of hl
    cases l with
    | nil => exact h1 rfl
    | cons c l =>
      have h3 := List.all_eq_true.1 h2 c (by simp)
      have h4 := h.2 c (by simp [hs c (by simp)])
      apply h4
      simp only [Char.isDigit, Bool.and_eq_true, decide_eq_true_eq] at h3
      exact h3
  rcases hd with hd | ⟨m, rfl, hd⟩
  · exact key hd fun c hc => hc
  · exact key hd fun c hc => by simp [hc]

theorem entries_unique {U : Unicode} {ls : List (List Char)} {es es' : List (List Char × Nat)} (h : Entries U ls es)
    (h' : Entries U ls es') : es = es' := by
  have hu : ∀ {l t t' : List Char} {n n' : Nat}, LineIs l t n → LineIs l t' n' → t = t' ∧ n = n' := by
    intro l t t' n n' h h'
    generalize hL : l = L at h'
    cases h with
    | counted h1 h2 =>
      cases h' with
      | counted h3 h4 =>
        obtain ⟨rfl, rfl⟩ := split_at h1 h3 hL
        exact ⟨rfl, Option.some.inj ((parseU32_iff.2 h2).symm.trans (parseU32_iff.2 h4))⟩
      | plain h3 => exact absurd ⟨_, _, _, hL.symm, h1, h2⟩ h3
    | plain h1 =>
      cases h' with
      | counted h3 h4 => exact absurd ⟨_, _, _, hL, h3, h4⟩ h1
      | plain h3 => subst hL; exact ⟨rfl, rfl⟩
  induction h generalizing es' with
  | nil => cases h'; rfl
  | keep h1 h2 _ ih =>
    cases h' with
    | keep h3 h4 h5 => obtain ⟨rfl, rfl⟩ := hu h1 h3; rw [ih h5]
    | skip h3 h4 h5 => obtain ⟨rfl, rfl⟩ := hu h1 h3; exact absurd h2 h4
  | skip h1 h2 _ ih =>
    cases h' with
    | keep h3 h4 h5 => obtain ⟨rfl, rfl⟩ := hu h1 h3; exact absurd h4 h2
    | skip h3 h4 h5 => exact ih h5

/-- C54: a word list that was loaded and is served can be loaded again: it has the same words (text and symbols), each as
often as before, if no word ends with a carriage return. -/
theorem C54_again {U : Unicode} {text : List Char} {wl : List Word} (hwl : wl = loadWordlist U text)
    (hr : ∀ w ∈ wl, w.text.toList.getLast? ≠ some '\r') :
    ((loadWordlist U (listText wl)).map fun w => (w.text, w.chars)).Perm (wl.map fun w => (w.text, w.chars)) := by
  have hall : ∀ w ∈ wl, Spec.Keeps U w.text.toList ∧ '\n' ∉ w.text.toList ∧ w.chars = normalise U w.text.toList := by
    subst hwl; exact fun w hw => loaded_entries hw
  have hlines := listText_lines fun w hw => ⟨(hall w hw).2.1, hr w hw⟩
  have hent : ∀ {l : List Word}, (∀ w ∈ l, w ∈ wl) → Entries U (l.map fun w => w.text.toList)
      (l.map fun w => (w.text.toList, 200 * (w.text.toList.map Char.utf8Size).sum % 2 ^ 32)) := by
    intro l hl
    induction l with
    | nil => exact .nil
    | cons w l ih =>
      have hk := (hall w (hl w (by simp))).1
      exact .keep (plain_line hk) hk (ih fun x hx => hl x (by simp [hx]))
  obtain ⟨ls, es, ws, h1, h2, h3, h4, h5, _⟩ := C03_load U (listText wl)
  obtain rfl := (fileLines_iff.1 h1).symm.trans (fileLines_iff.1 hlines)
  obtain rfl := entries_unique h2 (hent fun _ h => h)
  have e : ((loadWordlist U (listText wl)).map (fun w => (w.text, w.chars))).Perm (ws.map fun w => (w.text, w.chars)) := h5.map _
  refine e.trans (List.Perm.of_eq ?_)
  apply List.ext_getElem?
  intro k
  rw [List.length_map] at h3
  rw [List.getElem?_map, List.getElem?_map]
  by_cases hk : k < wl.length
  · obtain ⟨w, hw, t, _, _, e1, _, e2, _⟩ := h4 k _ (by rw [List.getElem?_map, List.getElem?_eq_getElem hk]; rfl)
    rw [hw, List.getElem?_eq_getElem hk]
    simp only [Option.map_some, Option.some.injEq, Prod.mk.injEq]
    refine ⟨by rw [e1]; exact String.ofList_toList, ?_⟩
    rw [e2, (hall wl[k] (List.getElem_mem hk)).2.2]
  · rw [List.getElem?_eq_none (by omega), List.getElem?_eq_none (by omega)]

/-- C54: a word that ends with a carriage return does not come back. -/
theorem C54_counterexample : ∃ wl, wl = loadWordlist asciiUnicode "abc\r\r\n".toList ∧
    wl.map (fun w => w.text.toList) = ["abc\r".toList] ∧
    (loadWordlist asciiUnicode (listText wl)).map (fun w => w.text.toList) = ["abc".toList] := by
  have key : ∀ (t : List Char) (r : List (List Char × List Ch)), r.length = 1 →
      (loadLines asciiUnicode {} (fileLines [] t)).map (fun w => (w.text.toList, w.chars)) = r →
      (loadWordlist asciiUnicode t).map (fun w => w.text.toList) = r.map Prod.fst := by
    intro t r hr h
    have h2 : ((loadWordlist asciiUnicode t).map (fun w => w.text.toList)).Perm (r.map Prod.fst) := by
      rw [← h, List.map_map]; exact (sortWords_perm _).map _
    obtain ⟨x, rfl⟩ := List.length_eq_one_iff.1 hr
    exact List.perm_singleton.1 h2
  have h1 := key "abc\r\r\n".toList [("abc\r".toList, normalise asciiUnicode "abc\r".toList)] rfl (by decide +kernel)
  refine ⟨_, rfl, h1, ?_⟩
  have h2 : listText (loadWordlist asciiUnicode "abc\r\r\n".toList) = "abc\r\n".toList := by
    unfold listText
    have : (loadWordlist asciiUnicode "abc\r\r\n".toList).map (fun w => w.text.toList ++ ['\n']) =
        ((loadWordlist asciiUnicode "abc\r\r\n".toList).map (fun w => w.text.toList)).map (· ++ ['\n']) := by
      rw [List.map_map]; rfl
    rw [this, h1]
    decide
  rw [h2]
  exact key "abc\r\n".toList [("abc".toList, normalise asciiUnicode "abc".toList)] rfl (by decide +kernel)

/-! ### Cases -/

/-- A case of `C53_counters`, `C53_others`: a web socket that fails, and one that begins after it. -/
example : gauge ([(0, Act.count), (0, .start), (1, .count)].map Prod.snd) = 1 := by
  have hreq : Request asciiUnicode [] [Act.count, .start] .failed := by
    have := Request.socket (U := asciiUnicode) (ds := []) ⟨id, fun i _ => i⟩ ⟨[], [], id⟩ (some (some "(".toList)) none 0 []
    rwa [C38_counterexample.1, C38_counterexample.2.1] at this
  have hl : Interleaved (numbered ([([Act.count, .start], HandlerEnd.failed), ([.count, .start], .failed)].map Prod.fst))
      [(0, Act.count), (0, .start), (1, .count), (1, .start)] := by
    have h4 : Interleaved ([[]] ++ [[]]) ([] : List (Nat × Act)) := .done (by simp)
    have h3 : Interleaved ([[]] ++ [[(1, Act.start)]]) [(1, Act.start)] := .step h4
    have h2 : Interleaved ([] ++ [[], [(1, Act.count), (1, .start)]]) [(1, .count), (1, Act.start)] :=
      Interleaved.step (ls := [[]]) h3
    have h1 : Interleaved ([] ++ [[(0, Act.start)], [(1, .count), (1, .start)]]) [(0, .start), (1, .count), (1, Act.start)] :=
      Interleaved.step (ls := []) h2
    exact Interleaved.step (ls := []) h1
  rw [C53_others (i := 1) (fun r hr => by
    simp only [List.mem_cons, List.not_mem_nil, or_false, or_self] at hr
    subst hr
    exact hreq) hl (by simp)]
  decide

/-- A case of `C53_metrics`, `C53_script`. -/
example : PlainDir sampleDir ∧ ∃ ws, HasDict asciiUnicode sampleDir "default".toList ws ∧ ws.length = 2 := by
  refine ⟨by unfold PlainDir PlainName; decide, loadWordlist asciiUnicode "ab\ncd\n".toList, ⟨[⟨"README".toList, false, []⟩], _, [], rfl, rfl,
    ⟨by decide, .inr ⟨"txt".toList, rfl⟩⟩, rfl, by simp⟩, ?_⟩
  have : (loadWordlist asciiUnicode "ab\ncd\n".toList).length = _ := (sortWords_perm _).length_eq
  rw [this]
  decide +kernel

/-- A case of `C54_again`. -/
example : ((loadWordlist asciiUnicode (listText (loadWordlist asciiUnicode sampleFile))).map fun w => w.text.toList).Perm
    ["the".toList, "cat".toList, "dog".toList, "I".toList, "We're".toList] := by
  have hall : ∀ w ∈ loadLines asciiUnicode {} (fileLines [] sampleFile), w.text.toList.getLast? ≠ some '\r' := by
    have : (loadLines asciiUnicode {} (fileLines [] sampleFile)).all (fun w => decide (w.text.toList.getLast? ≠ some '\r')) = true := by
      decide +kernel
    intro w hw
    simpa using List.all_eq_true.1 this w hw
  have h1 := C54_again (U := asciiUnicode) rfl fun w hw => hall w ((sortWords_perm _).mem_iff.1 hw)
  have h2 := (h1.map fun x => x.1.toList)
  rw [List.map_map, List.map_map] at h2
  refine h2.trans ?_
  have h3 : (loadLines asciiUnicode {} (fileLines [] sampleFile)).map (fun w => w.text.toList) =
    ["the".toList, "cat".toList, "dog".toList, "I".toList, "We're".toList] := by decide +kernel
  rw [← h3]
  exact (sortWords_perm _).map _

end Noodle
