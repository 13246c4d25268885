import Verif.Model.Links
import Verif.Spec.Links
import Verif.Props.C64
import Verif.Props.C61
/-
C73: the links next to a result.
-/
namespace Noodle
open Spec
set_option autoImplicit false

/-! ### Reading an address has one result -/

theorem upTo_unique {marks s a b : List Char} (ha : UpTo marks s a) (hb : UpTo marks s b) : a = b := by
  obtain ⟨ha1, ha2⟩ := ha
  obtain ⟨hb1, hb2⟩ := hb
  have key : ∀ {a b : List Char}, (∀ c ∈ b, c ∉ marks) → s = a ∨ (∃ m r, m ∈ marks ∧ s = a ++ m :: r) →
      s = b ∨ (∃ m r, m ∈ marks ∧ s = b ++ m :: r) → b.length ≤ a.length := by
    intro a b hb1 ha2 hb2
    refine Nat.le_of_not_lt fun hlt => ?_
    have hpre : b <+: s := by
      rcases hb2 with rfl | ⟨m, r, _, rfl⟩
      · exact List.prefix_rfl
      · exact List.prefix_append _ _
    rcases ha2 with rfl | ⟨m, r, hm, rfl⟩
    · have := hpre.length_le; omega
    · have h1 : (a ++ [m]) <+: b := by
        refine List.prefix_of_prefix_length_le (l₃ := a ++ m :: r) ⟨r, by simp⟩ hpre ?_
        rw [List.length_append]; exact hlt
      obtain ⟨t, rfl⟩ := h1
      exact hb1 m (by simp) hm
  have hlen : a.length = b.length := Nat.le_antisymm (key ha1 hb2 ha2) (key hb1 ha2 hb2)
  have hpa : a <+: s := by
    rcases ha2 with rfl | ⟨m, r, _, rfl⟩
    · exact List.prefix_rfl
    · exact List.prefix_append _ _
  have hpb : b <+: s := by
    rcases hb2 with rfl | ⟨m, r, _, rfl⟩
    · exact List.prefix_rfl
    · exact List.prefix_append _ _
  exact (List.prefix_of_prefix_length_le hpa hpb (Nat.le_of_eq hlen)).eq_of_length hlen

theorem after_unique {m : Char} {s a b : List Char} (ha : After m s a) (hb : After m s b) : a = b := by
  obtain ⟨p, hp, rfl⟩ := ha
  obtain ⟨q, hq, e⟩ := hb
  have : p = q := upTo_unique (marks := [m]) (s := p ++ m :: a)
    ⟨fun c hc e => hp (List.mem_singleton.1 e ▸ hc), .inr ⟨m, a, by simp, rfl⟩⟩
    ⟨fun c hc e => hq (List.mem_singleton.1 e ▸ hc), .inr ⟨m, b, by simp, e⟩⟩
  subst this
  have := List.append_cancel_left e
  injection this

/-- Two sequences of escapes at the beginning of the same text, of the bytes of a character each, are the same. -/
theorem escapes_same {c d : Char} {e e' s s' : List Char} (h : Escapes e (String.utf8EncodeChar c))
    (h' : Escapes e' (String.utf8EncodeChar d)) (he : e ++ s = e' ++ s') : c = d ∧ e = e' ∧ s = s' := by
  obtain ⟨b, m, hb, hk⟩ := ones_of_encoded c
  obtain ⟨b', m', hb', hk'⟩ := ones_of_encoded d
  have l1 := moreEscapes_of h s
  have l2 := moreEscapes_of h' s'
  have hbb : b = b' := by
    rw [hb] at h
    rw [hb'] at h'
    obtain ⟨x, y, r, rfl, hx, _⟩ := escapes_inv h
    obtain ⟨x', y', r', rfl, hx', _⟩ := escapes_inv h'
    simp only [List.cons_append, List.cons.injEq, true_and] at he
    obtain ⟨rfl, rfl, _⟩ := he
    rw [hx] at hx'
    injection hx'
  have hlen : m.length = m'.length := by
    subst hbb
    rcases hk with ⟨k1, rfl, _⟩ | ⟨k1, k2, _⟩ <;> rcases hk' with ⟨k1', rfl, _⟩ | ⟨k1', k2', _⟩ <;> simp_all
  have hl : (String.utf8EncodeChar c).length = (String.utf8EncodeChar d).length := by rw [hb, hb']; simp [hlen]
  rw [hl, he, l2] at l1
  injection l1 with l1
  injection l1 with l1 l3
  subst l3
  refine ⟨?_, List.append_cancel_right he, rfl⟩
  have h1 : fromUtf8 (String.utf8EncodeChar c) = some [c] := by rw [fromUtf8_iff]; simp [strBytes]
  have h2 : fromUtf8 (String.utf8EncodeChar d) = some [d] := by rw [fromUtf8_iff]; simp [strBytes]
  rw [← l1, h2] at h1
  injection h1 with h1
  injection h1 with h1
  exact h1.symm

theorem escapes_head {c : Char} {e : List Char} (h : Escapes e (String.utf8EncodeChar c)) : ∃ r, e = '%' :: r := by
  obtain ⟨b, m, hb, _⟩ := ones_of_encoded c
  rw [hb] at h
  obtain ⟨x, y, r, rfl, _⟩ := escapes_inv h
  exact ⟨_, rfl⟩

theorem urlText_unique {form : Bool} {s t t' : List Char} (h : UrlText form s t) (h' : UrlText form s t') : t = t' := by
  induction h generalizing t' with
  | nil =>
    generalize hs : ([] : List Char) = s at h'
    cases h' with
    | nil => rfl
    | plain => cases hs
    | blank => cases hs
    | escaped he _ => obtain ⟨r, rfl⟩ := escapes_head he; cases hs
  | @plain c s t h1 h2 _ ih =>
    generalize hs : c :: s = s0 at h'
    cases h' with
    | nil => cases hs
    | plain _ _ h3 => cases hs; rw [ih h3]
    | blank hf => cases hs; exact absurd rfl (h2 hf)
    | escaped he _ => obtain ⟨r, rfl⟩ := escapes_head he; cases hs; exact absurd rfl h1
  | @blank s t hf _ ih =>
    generalize hs : '+' :: s = s0 at h'
    cases h' with
    | nil => cases hs
    | plain _ h2 _ => cases hs; exact absurd rfl (h2 hf)
    | blank _ h3 => cases hs; rw [ih h3]
    | escaped he _ => obtain ⟨r, rfl⟩ := escapes_head he; cases hs
  | @escaped c e s t he _ ih =>
    generalize hs : e ++ s = s0 at h'
    cases h' with
    | nil => obtain ⟨r, rfl⟩ := escapes_head he; cases hs
    | plain h1 _ _ => obtain ⟨r, rfl⟩ := escapes_head he; cases hs; exact absurd rfl h1
    | blank => obtain ⟨r, rfl⟩ := escapes_head he; cases hs
    | escaped he' h3 =>
      obtain ⟨rfl, rfl, rfl⟩ := escapes_same he he' hs
      rw [ih h3]

theorem split_eq {m : Char} {n n' v v' : List Char} (h : n ++ m :: v = n' ++ m :: v') (hn : m ∉ n) (hn' : m ∉ n') :
    n = n' ∧ v = v' := by
  have h1 : After m (n ++ m :: v) v := ⟨n, hn, rfl⟩
  have h2 : After m (n ++ m :: v) v' := ⟨n', hn', h⟩
  have := after_unique h1 h2
  subst this
  exact ⟨List.append_cancel_right h, rfl⟩

theorem field_unique {name query t t' : List Char} (h : FieldIs name query t) (h' : FieldIs name query t') : t = t' := by
  induction h generalizing t' with
  | here h1 h2 h3 h4 h5 =>
    cases h' with
    | here g1 g2 g3 g4 g5 =>
      cases upTo_unique h1 g1
      subst h2
      obtain ⟨rfl, rfl⟩ := split_eq g2 h3 g3
      exact urlText_unique h5 g5
    | later g1 g2 g3 g4 =>
      cases upTo_unique h1 g1
      exact absurd h4 (g3 _ _ h2 h3)
  | later h1 h2 h3 _ ih =>
    cases h' with
    | here g1 g2 g3 g4 g5 =>
      cases upTo_unique h1 g1
      exact absurd g4 (h3 _ _ g2 g3)
    | later g1 g2 g3 g4 =>
      cases after_unique h2 g2
      exact ih g4

theorem asks_unique {url name v v' : List Char} (h : Asks url name v) (h' : Asks url name v') : v = v' := by
  obtain ⟨m, q, h1, h2, h3⟩ := h
  obtain ⟨m', q', h1', h2', h3'⟩ := h'
  cases upTo_unique h1 h1'
  cases after_unique h2 h2'
  exact field_unique h3 h3'

theorem visits_unique {url v v' : List Char} (h : Visits url v) (h' : Visits url v') : v = v' := by
  obtain ⟨m, h1, h2⟩ := h
  obtain ⟨m', h1', h2'⟩ := h'
  cases upTo_unique h1 h1'
  exact urlText_unique h2 h2'

/-! ### The links -/

/-- The words that a form understands: `+` is a blank. -/
def blanks (s : List Char) : List Char := s.map fun c => if c = '+' then ' ' else c

theorem encode_append (s t : List Char) : encodeURI (s ++ t) = encodeURI s ++ encodeURI t := List.flatMap_append

theorem encode_kept {c : Char} (h : c ∈ preserved) : encodeURI [c] = [c] := by
  rw [encodeURI, List.flatMap_cons, if_pos (by rw [unescapedUri, decide_eq_true h]; rfl)]
  rfl

theorem encode_mem {s : List Char} {m : Char} (hm : m ∈ preserved) (h : m ∈ encodeURI s) : m ∈ s := by
  rw [encodeURI, List.mem_flatMap] at h
  obtain ⟨d, hd, hm'⟩ := h
  split at hm'
  · rw [List.mem_singleton] at hm'
    exact hm' ▸ hd
  · rw [List.mem_flatMap] at hm'
    obtain ⟨b, _, hb⟩ := hm'
    have hx : ∀ n < 16, upperHex n ∉ preserved := by decide +kernel
    have hlt : b.toNat < 256 := UInt8.toNat_lt b
    simp only [escapeByte, List.mem_cons, List.not_mem_nil, or_false] at hb
    rcases hb with rfl | rfl | rfl
    · exact absurd hm (by decide)
    · exact absurd hm (hx _ (by omega))
    · exact absurd hm (hx _ (by omega))

theorem encode_upTo {marks s a : List Char} (hm : ∀ m ∈ marks, m ∈ preserved) (h : UpTo marks s a) :
    UpTo marks (encodeURI s) (encodeURI a) := by
  refine ⟨fun c hc hcm => h.1 c (encode_mem (hm c hcm) hc) hcm, ?_⟩
  rcases h.2 with rfl | ⟨m, r, h1, rfl⟩
  · exact .inl rfl
  · refine .inr ⟨m, encodeURI r, h1, ?_⟩
    rw [encode_append, ← List.singleton_append, encode_append, encode_kept (hm m h1)]
    rfl

theorem encode_form : ∀ s : List Char, UrlText true (encodeURI s) (blanks s)
  | [] => .nil
  | c :: s => by
    rw [encodeURI, List.flatMap_cons, blanks, List.map_cons]
    by_cases hp : c = '+'
    · subst hp
      rw [if_pos (by decide), if_pos rfl]
      exact .blank rfl (encode_form s)
    · rw [if_neg hp]
      split
      · next hc =>
        refine .plain ?_ (fun _ => hp) (encode_form s)
        rintro rfl
        exact absurd hc (by decide)
      · exact .escaped (escapes_bytes _) (encode_form s)

theorem encode_path : ∀ s : List Char, UrlText false (encodeURI s) s
  | [] => .nil
  | c :: s => by
    rw [encodeURI, List.flatMap_cons]
    split
    · next hc =>
      refine .plain ?_ (fun h => by cases h) (encode_path s)
      rintro rfl
      exact absurd hc (by decide)
    · exact .escaped (escapes_bytes _) (encode_path s)

theorem plain_urlText {form : Bool} {s t : List Char} : ∀ {p : List Char}, (∀ c ∈ p, c ≠ '%' ∧ c ≠ '+') → UrlText form s t →
    UrlText form (p ++ s) (p ++ t)
  | [], _, h => h
  | c :: p, hp, h => .plain (hp c (by simp)).1 (fun _ => (hp c (by simp)).2) (plain_urlText (fun d hd => hp d (by simp [hd])) h)

theorem upTo_append {marks p s a : List Char} (hp : ∀ c ∈ p, c ∉ marks) (h : UpTo marks s a) :
    UpTo marks (p ++ s) (p ++ a) := by
  refine ⟨fun c hc => ?_, ?_⟩
  · rcases List.mem_append.1 hc with hc | hc
    · exact hp c hc
    · exact h.1 c hc
  · rcases h.2 with rfl | ⟨m, r, h1, rfl⟩
    · exact .inl rfl
    · exact .inr ⟨m, r, h1, by simp⟩

theorem upTo_exists (marks : List Char) : ∀ s : List Char, ∃ a, UpTo marks s a
  | [] => ⟨[], by simp, .inl rfl⟩
  | c :: s => by
    by_cases hc : c ∈ marks
    · exact ⟨[], by simp, .inr ⟨c, s, hc, rfl⟩⟩
    · obtain ⟨a, ha⟩ := upTo_exists marks s
      exact ⟨c :: a, upTo_append (p := [c]) (by simpa using hc) ha⟩

/-- Up to `#` and then up to `&` is up to the first of both. -/
theorem upTo_both {s a : List Char} (h : UpTo ['&', '#'] s a) : ∃ m, UpTo ['#'] s m ∧ UpTo ['&'] m a := by
  obtain ⟨h1, h2⟩ := h
  rcases h2 with rfl | ⟨m, r, hm, rfl⟩
  · exact ⟨s, ⟨fun c hc e => h1 c hc (by simp_all), .inl rfl⟩, ⟨fun c hc e => h1 c hc (by simp_all), .inl rfl⟩⟩
  · rcases List.mem_cons.1 hm with rfl | hm
    · obtain ⟨b, hb⟩ := upTo_exists ['#'] r
      refine ⟨a ++ '&' :: b, upTo_append (fun c hc e => h1 c hc (by simp_all))
        (upTo_append (p := ['&']) (by decide) hb), ⟨fun c hc e => h1 c hc (by simp_all), .inr ⟨'&', b, by simp, rfl⟩⟩⟩
    · rw [List.mem_singleton] at hm
      subst hm
      exact ⟨a, ⟨fun c hc e => h1 c hc (by simp_all), .inr ⟨'#', r, by simp, rfl⟩⟩,
        ⟨fun c hc e => h1 c hc (by simp_all), .inl rfl⟩⟩

theorem marks_kept : ∀ m ∈ ['&', '#'], m ∈ preserved := by decide

theorem google_asks {h : Hit} {a : List Char} (ha : UpTo ['&', '#'] h.text a) :
    Asks (googleLink h) "q".toList ("define:".toList ++ blanks a) := by
  obtain ⟨m, h1, h2⟩ := upTo_both (encode_upTo marks_kept ha)
  refine ⟨"https://google.com/search?q=define:".toList ++ m, "q=define:".toList ++ m, upTo_append (by decide +kernel) h1,
    ⟨"https://google.com/search".toList, by decide +kernel, ?_⟩, ?_⟩
  · rw [show "https://google.com/search?q=define:".toList = "https://google.com/search".toList ++ '?' :: "q=define:".toList
      by decide +kernel, List.append_assoc, List.cons_append]
  · refine .here (upTo_append (by decide +kernel) h2) (n := "q".toList) (v := "define:".toList ++ encodeURI a) ?_
      (by decide +kernel) ?_ ?_
    · rw [show "q=define:".toList = "q".toList ++ '=' :: "define:".toList by decide +kernel, List.append_assoc,
        List.cons_append]
    · simpa using plain_urlText (form := true) (p := "q".toList) (by decide +kernel) .nil
    · exact plain_urlText (by decide +kernel) (encode_form a)

theorem wiki_asks {h : Hit} {a : List Char} (ha : UpTo ['&', '#'] h.text a) :
    Asks (wikiLink h) "search".toList (blanks a) := by
  obtain ⟨m, h1, h2⟩ := upTo_both (encode_upTo marks_kept ha)
  refine ⟨"https://en.wikipedia.org/w/index.php?ns0=1&search=".toList ++ m, "ns0=1&search=".toList ++ m,
    upTo_append (by decide +kernel) h1, ⟨"https://en.wikipedia.org/w/index.php".toList, by decide +kernel, ?_⟩, ?_⟩
  · rw [show "https://en.wikipedia.org/w/index.php?ns0=1&search=".toList =
      "https://en.wikipedia.org/w/index.php".toList ++ '?' :: "ns0=1&search=".toList by decide +kernel, List.append_assoc,
      List.cons_append]
  · have e : "ns0=1&search=".toList ++ m = "ns0=1".toList ++ '&' :: ("search=".toList ++ m) := by
      rw [show "ns0=1&search=".toList = "ns0=1".toList ++ '&' :: "search=".toList by decide +kernel, List.append_assoc,
        List.cons_append]
    refine .later (part := "ns0=1".toList) (rest := "search=".toList ++ m)
      ⟨by decide +kernel, .inr ⟨'&', _, by simp, e⟩⟩ ⟨"ns0=1".toList, by decide +kernel, e⟩ ?_ ?_
    · intro n v hnv hn ht
      have hnv' : "ns0".toList ++ '=' :: "1".toList = n ++ '=' :: v := by rw [← hnv]; decide +kernel
      obtain ⟨rfl, _⟩ := split_eq hnv' (by decide +kernel) hn
      have := urlText_unique ht (by simpa using plain_urlText (form := true) (p := "ns0".toList) (by decide +kernel) .nil)
      exact absurd this (by decide +kernel)
    · refine .here (upTo_append (by decide +kernel) h2) (n := "search".toList) (v := encodeURI a) ?_ (by decide +kernel) ?_
        (encode_form a)
      · rw [show "search=".toList = "search".toList ++ ['='] by decide +kernel, List.append_assoc, List.singleton_append]
      · simpa using plain_urlText (form := true) (p := "search".toList) (by decide +kernel) .nil

theorem crossword_visits {h : Hit} {a : List Char} (ha : UpTo ['?', '#'] h.text a) :
    Visits (crosswordLink h) ("https://crossword-solver.io/clue/".toList ++ a) :=
  ⟨_, upTo_append (by decide +kernel) (encode_upTo (by decide) ha), plain_urlText (by decide +kernel) (encode_path a)⟩

/-- C73: what the links next to a result ask: the two forms for the text of the result up to the first `&` or `#`, with a blank
for each `+`; the page of the third is named by the text up to the first `?` or `#`. -/
theorem C73_links {h : Hit} {a b : List Char} (ha : UpTo ['&', '#'] h.text a) (hb : UpTo ['?', '#'] h.text b) (v : List Char) :
    (Asks (googleLink h) "q".toList v ↔ v = "define:".toList ++ a.map fun c => if c = '+' then ' ' else c) ∧
    (Asks (wikiLink h) "search".toList v ↔ v = a.map fun c => if c = '+' then ' ' else c) ∧
    (Visits (crosswordLink h) v ↔ v = "https://crossword-solver.io/clue/".toList ++ b) :=
  ⟨⟨fun g => asks_unique g (google_asks ha), fun e => e ▸ google_asks ha⟩,
    ⟨fun g => asks_unique g (wiki_asks ha), fun e => e ▸ wiki_asks ha⟩,
    ⟨fun g => visits_unique g (crossword_visits hb), fun e => e ▸ crossword_visits hb⟩⟩

theorem blanks_eq {a : List Char} : (a.map fun c => if c = '+' then ' ' else c) = a ↔ '+' ∉ a := by
  induction a with
  | nil => simp
  | cons c a ih =>
    rw [List.map_cons, List.cons.injEq, ih]
    by_cases hc : c = '+'
    · subst hc
      simp
    · simp [hc, Ne.symm hc]

theorem upTo_self {marks s a : List Char} (h : UpTo marks s a) : a = s ↔ ∀ c ∈ s, c ∉ marks := by
  constructor
  · rintro rfl
    exact h.1
  · intro hs
    rcases h.2 with rfl | ⟨m, r, hm, rfl⟩
    · rfl
    · exact absurd hm (hs m (by simp))

/-- C73: the links ask for the text of the result, exactly as it is, if and only if it has none of `&`, `#` and `+`, or of `?`
and `#`. -/
theorem C73_right (h : Hit) :
    (Asks (googleLink h) "q".toList ("define:".toList ++ h.text) ↔ '&' ∉ h.text ∧ '#' ∉ h.text ∧ '+' ∉ h.text) ∧
    (Asks (wikiLink h) "search".toList h.text ↔ '&' ∉ h.text ∧ '#' ∉ h.text ∧ '+' ∉ h.text) ∧
    (Visits (crosswordLink h) ("https://crossword-solver.io/clue/".toList ++ h.text) ↔ '?' ∉ h.text ∧ '#' ∉ h.text) := by
  obtain ⟨a, ha⟩ := upTo_exists ['&', '#'] h.text
  obtain ⟨b, hb⟩ := upTo_exists ['?', '#'] h.text
  have key : h.text = (a.map fun c => if c = '+' then ' ' else c) ↔ '&' ∉ h.text ∧ '#' ∉ h.text ∧ '+' ∉ h.text := by
    constructor
    · intro e
      have h1 : ∀ c ∈ h.text, c ∉ ['&', '#'] := by
        intro c hc
        rw [e, List.mem_map] at hc
        obtain ⟨d, hd, rfl⟩ := hc
        split
        · decide
        · exact ha.1 d hd
      have h2 : a = h.text := (upTo_self ha).2 h1
      rw [h2] at e
      refine ⟨fun hc => h1 _ hc (by simp), fun hc => h1 _ hc (by simp), blanks_eq.1 e.symm⟩
    · rintro ⟨h1, h2, h3⟩
      have e : a = h.text := (upTo_self ha).2 (by
        intro c hc hm
        simp only [List.mem_cons, List.not_mem_nil, or_false] at hm
        rcases hm with rfl | rfl
        · exact h1 hc
        · exact h2 hc)
      rw [e]
      exact (blanks_eq.2 h3).symm
  refine ⟨?_, ?_, ?_⟩
  · rw [(C73_links ha hb _).1, List.append_right_inj, key]
  · rw [(C73_links ha hb _).2.1, key]
  · rw [(C73_links ha hb _).2.2, List.append_right_inj, eq_comm, upTo_self hb]
    constructor
    · intro g
      exact ⟨fun hc => g _ hc (by simp), fun hc => g _ hc (by simp)⟩
    · rintro ⟨h1, h2⟩ c hc hm
      simp only [List.mem_cons, List.not_mem_nil, or_false] at hm
      rcases hm with rfl | rfl
      · exact h1 hc
      · exact h2 hc

theorem joined_mem {P : Char → Prop} (hb : P ' ') : ∀ {ws : List Word}, (∀ w ∈ ws, ∀ c ∈ w.text.toList, P c) →
    ∀ c ∈ joined ws, P c
  | [], _, c, hc => by cases hc
  | [w], h, c, hc => h w (by simp) c hc
  | w :: v :: ws, h, c, hc => by
    change c ∈ w.text.toList ++ ' ' :: joined (v :: ws) at hc
    rcases List.mem_append.1 hc with hc | hc
    · exact h w (by simp) c hc
    · rcases List.mem_cons.1 hc with rfl | hc
      · exact hb
      · exact joined_mem hb (fun x hx => h x (List.mem_cons_of_mem _ hx)) c hc

/-- C73: for a phrase of words without blanks at their ends and without these signs, the links ask for the words with
blanks between them, which is also what is copied. -/
theorem C73_phrase {h : Hit} {ws : List Word} (hc : Copyable ws) (hp : h.phrase.map Prod.fst = ws.map fun w => w.text.toList)
    (hm : ∀ w ∈ ws, ∀ c ∈ w.text.toList, c ∉ ['&', '#', '+', '?']) :
    Asks (googleLink h) "q".toList ("define:".toList ++ joined ws) ∧ Asks (wikiLink h) "search".toList (joined ws) ∧
    Visits (crosswordLink h) ("https://crossword-solver.io/clue/".toList ++ joined ws) ∧ copiedResult h = joined ws := by
  have e : h.text = joined ws := by rw [Hit.text, hp, fullText_joined hc]
  have hj : ∀ c ∈ joined ws, c ∉ ['&', '#', '+', '?'] := joined_mem (by decide) hm
  obtain ⟨g1, g2, g3⟩ := C73_right h
  rw [e] at g1 g2 g3
  have n : ∀ c ∈ ['&', '#', '+', '?'], c ∉ joined ws := fun c hc hj' => hj c hj' hc
  exact ⟨g1.2 ⟨n _ (by simp), n _ (by simp), n _ (by simp)⟩, g2.2 ⟨n _ (by simp), n _ (by simp), n _ (by simp)⟩,
    g3.2 ⟨n _ (by simp), n _ (by simp)⟩, e⟩

/-- C73: three entries of word lists for which the links ask for something else: they ask what `AT` means, what `C` followed by
two blanks means, and for the page of `C`. -/
theorem C73_counterexample :
    Asks (googleLink ⟨[("AT&T".toList, 1)], 0⟩) "q".toList "define:AT".toList ∧
    Asks (wikiLink ⟨[("C++".toList, 1)], 0⟩) "search".toList "C  ".toList ∧
    Visits (crosswordLink ⟨[("C#".toList, 1)], 0⟩) "https://crossword-solver.io/clue/C".toList := by
  have h1 : (⟨[("AT&T".toList, 1)], 0⟩ : Hit).text = "AT&T".toList := by decide +kernel
  have h2 : (⟨[("C++".toList, 1)], 0⟩ : Hit).text = "C++".toList := by decide +kernel
  have h3 : (⟨[("C#".toList, 1)], 0⟩ : Hit).text = "C#".toList := by decide +kernel
  have a1 : UpTo ['&', '#'] (⟨[("AT&T".toList, 1)], 0⟩ : Hit).text "AT".toList := by
    rw [h1]; exact ⟨by decide +kernel, .inr ⟨'&', ['T'], by decide, by decide +kernel⟩⟩
  have a2 : UpTo ['&', '#'] (⟨[("C++".toList, 1)], 0⟩ : Hit).text "C++".toList := by
    rw [h2]; exact ⟨by decide +kernel, .inl rfl⟩
  have a3 : UpTo ['?', '#'] (⟨[("C#".toList, 1)], 0⟩ : Hit).text "C".toList := by
    rw [h3]; exact ⟨by decide +kernel, .inr ⟨'#', [], by decide, by decide +kernel⟩⟩
  refine ⟨?_, ?_, ?_⟩
  · have := google_asks a1
    rwa [show "define:".toList ++ blanks "AT".toList = "define:AT".toList by decide +kernel] at this
  · have := wiki_asks a2
    rwa [show blanks "C++".toList = "C  ".toList by decide +kernel] at this
  · have := crossword_visits a3
    rwa [show "https://crossword-solver.io/clue/".toList ++ "C".toList = "https://crossword-solver.io/clue/C".toList by
      decide +kernel] at this

/-- A phrase to which `C73_phrase` applies. -/
example : Asks (googleLink ⟨[("ice".toList, 600), ("cream".toList, 1000)], 0⟩) "q".toList "define:ice cream".toList := by
  have hw : [Word.new asciiUnicode "ice" 0 600, Word.new asciiUnicode "cream" 0 1000] ∈ earlier := List.mem_cons_self
  have := (C73_phrase (h := ⟨[("ice".toList, 600), ("cream".toList, 1000)], 0⟩) (earlier_copyable _ hw) (by rfl)
    (by decide +kernel)).1
  rwa [show "define:".toList ++ joined [Word.new asciiUnicode "ice" 0 600, Word.new asciiUnicode "cream" 0 1000] =
    "define:ice cream".toList by decide +kernel] at this

end Noodle
