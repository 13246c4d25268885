import Verif.Model.Link
import Verif.Spec.Link
import Verif.Props.C63
/-
C64: the address of the page holds the query.
-/
namespace Noodle
open Spec
set_option autoImplicit false

/-! ### Hexadecimal digits -/

theorem upperHex_spec {n : Nat} (h : n < 16) : HexDigit (upperHex n) n := by
  have : ∀ n < 16, "0123456789ABCDEF".toList[n]? = some (upperHex n) := by decide +kernel
  exact .inr (this n h)

theorem hexOf_iff {c : Char} {v : Nat} : hexOf c = some v ↔ HexDigit c v := by
  constructor
  · intro h
    unfold hexOf at h
    split at h
    · rename_i hc
      exact (hexValue_char (encode_ascii hc) h).1
    · cases h
  · intro h
    obtain ⟨h1, _, h2⟩ := hexDigit_bounds h
    rw [hexOf, if_pos h1, h2]

theorem hexOctet_iff {a b : Char} {x : UInt8} :
    hexOctet a b = some x ↔ ∃ m n, HexDigit a m ∧ HexDigit b n ∧ x = UInt8.ofNat (16 * m + n) := by
  simp only [← hexOf_iff]
  unfold hexOctet
  cases hexOf a <;> cases hexOf b <;> simp [eq_comm]

theorem escapes_byte (b : UInt8) : Escapes (escapeByte b) [b] := by
  have hb : b.toNat < 256 := UInt8.toNat_lt b
  have e : b = UInt8.ofNat (16 * (b.toNat / 16) + b.toNat % 16) := by
    rw [show 16 * (b.toNat / 16) + b.toNat % 16 = b.toNat by omega]
    simp
  have := Escapes.cons (upperHex_spec (show b.toNat / 16 < 16 by omega)) (upperHex_spec (Nat.mod_lt b.toNat (by omega)))
    Escapes.nil
  rw [← e] at this
  exact this

theorem escapes_append {s t : List Char} {a b : List UInt8} (h1 : Escapes s a) (h2 : Escapes t b) :
    Escapes (s ++ t) (a ++ b) := by
  induction h1 with
  | nil => exact h2
  | cons h3 h4 _ ih => exact .cons h3 h4 ih

theorem escapes_bytes : ∀ l : List UInt8, Escapes (l.flatMap escapeByte) l
  | [] => .nil
  | b :: l => by
    rw [List.flatMap_cons]
    exact escapes_append (escapes_byte b) (escapes_bytes l)

theorem moreEscapes_of {e : List Char} {bs : List UInt8} (h : Escapes e bs) (s : List Char) :
    moreEscapes bs.length (e ++ s) = some (bs, s) := by
  induction h with
  | nil => rfl
  | cons h1 h2 _ ih =>
    rw [List.length_cons, List.cons_append, List.cons_append, List.cons_append, moreEscapes,
      hexOctet_iff.2 ⟨_, _, h1, h2, rfl⟩]
    simp only
    rw [ih]
    rfl

theorem moreEscapes_some : ∀ {n : Nat} {s r : List Char} {bs : List UInt8}, moreEscapes n s = some (bs, r) →
    ∃ e, s = e ++ r ∧ Escapes e bs
  | 0, s, r, bs, h => by
    injection h with h
    injection h with h1 h2
    subst h1 h2
    exact ⟨[], rfl, .nil⟩
  | n + 1, s, r, bs, h => by
    unfold moreEscapes at h
    split at h
    · exact absurd ‹n + 1 = 0› (by omega)
    · rename_i k a b s' hk
      obtain rfl : n = k := Nat.succ.inj hk
      cases hx : hexOctet a b with
      | none => rw [hx] at h; cases h
      | some x =>
        rw [hx] at h
        simp only [Option.map_eq_some_iff] at h
        obtain ⟨⟨xs, r'⟩, h1, h2⟩ := h
        injection h2 with h2 h3
        subst h2 h3
        obtain ⟨e, rfl, he⟩ := moreEscapes_some h1
        obtain ⟨m, k, h4, h5, rfl⟩ := hexOctet_iff.1 hx
        exact ⟨'%' :: a :: b :: e, rfl, .cons h4 h5 he⟩
    · cases h

/-! ### Decoding -/

theorem ones_of_encoded (c : Char) : ∃ b m, String.utf8EncodeChar c = b :: m ∧
    (leadingOnes b.toNat = 0 ∧ m = [] ∧ c = Char.ofNat b.toNat ∨
      leadingOnes b.toNat = m.length + 1 ∧ 1 ≤ m.length ∧ m.length ≤ 3) := by
  have hc := char_cases c
  have hv : c.val.toNat = c.toNat := rfl
  have e := char_of_toNat c
  unfold String.utf8EncodeChar
  rw [hv]
  simp only
  generalize c.toNat = n at *
  have two : ∀ k, 192 ≤ k → k < 224 → leadingOnes k = 2 := by
    intro k h1 h2
    rw [leadingOnes, if_neg (by omega), if_neg (by omega), if_pos (by omega)]
  have three : ∀ k, 224 ≤ k → k < 240 → leadingOnes k = 3 := by
    intro k h1 h2
    rw [leadingOnes, if_neg (by omega), if_neg (by omega), if_neg (by omega), if_pos (by omega)]
  have four : ∀ k, 240 ≤ k → k < 248 → leadingOnes k = 4 := by
    intro k h1 h2
    rw [leadingOnes, if_neg (by omega), if_neg (by omega), if_neg (by omega), if_neg (by omega), if_pos (by omega)]
  by_cases h1 : n ≤ 0x7f
  · rw [if_pos h1]
    refine ⟨_, _, rfl, .inl ⟨?_, rfl, ?_⟩⟩
    · rw [ofNat_toNat8 (by omega), leadingOnes, if_pos (by omega)]
    · rw [ofNat_toNat8 (by omega), e]
  rw [if_neg h1]
  by_cases h2 : n ≤ 0x7ff
  · rw [if_pos h2]
    refine ⟨_, _, rfl, .inr ⟨?_, by simp, by simp⟩⟩
    rw [ofNat_toNat8 (by omega), two _ (by omega) (by omega)]
    rfl
  rw [if_neg h2]
  by_cases h3 : n ≤ 0xffff
  · rw [if_pos h3]
    refine ⟨_, _, rfl, .inr ⟨?_, by simp, by simp⟩⟩
    rw [ofNat_toNat8 (by omega), three _ (by omega) (by omega)]
    rfl
  · rw [if_neg h3]
    refine ⟨_, _, rfl, .inr ⟨?_, by simp, by simp⟩⟩
    rw [ofNat_toNat8 (by omega), four _ (by omega) (by omega)]
    rfl

theorem escapes_inv {e : List Char} {b : UInt8} {m : List UInt8} (h : Escapes e (b :: m)) :
    ∃ x y r, e = '%' :: x :: y :: r ∧ hexOctet x y = some b ∧ Escapes r m := by
  cases h with
  | cons h1 h2 h3 => exact ⟨_, _, _, rfl, hexOctet_iff.2 ⟨_, _, h1, h2, rfl⟩, h3⟩

theorem decode_of {s t : List Char} (h : LinkText s t) : ∀ n, s.length ≤ n → decodeLoop n s = some t := by
  induction h with
  | nil => intro n _; cases n <;> rfl
  | @plain c s t h1 _ ih =>
    rintro (_ | n) hn
    · simp at hn
    · unfold decodeLoop
      rw [if_pos h1, ih n (by simpa using hn)]
      rfl
  | @escaped c e s t h1 h2 _ ih =>
    intro n hn
    obtain ⟨b, m, hbm, hk⟩ := ones_of_encoded c
    rw [hbm] at h1
    obtain ⟨x, y, r, rfl, hx, hr⟩ := escapes_inv h1
    rw [List.length_append] at hn
    simp only [List.length_cons] at hn
    obtain ⟨n, rfl⟩ : ∃ k, n = k + 1 := ⟨n - 1, by omega⟩
    rw [List.cons_append, List.cons_append, List.cons_append, decodeLoop, if_neg (by simp)]
    simp only [hx]
    rcases hk with ⟨k1, rfl, k2⟩ | ⟨k1, k2, k3⟩
    · cases hr
      rw [if_pos k1, ← k2, if_neg (show c ∉ preserved from h2), List.nil_append, ih n (by simp at hn; omega)]
      rfl
    · rw [if_neg (by omega), if_neg (by omega), show leadingOnes b.toNat - 1 = m.length by omega, moreEscapes_of hr]
      have : fromUtf8 (b :: m) = some [c] := by
        rw [fromUtf8_iff, ← hbm]; simp [strBytes]
      simp only [this]
      rw [ih n (by omega)]
      rfl
  | @kept c e s t h1 h2 _ ih =>
    intro n hn
    obtain ⟨b, m, hbm, hk⟩ := ones_of_encoded c
    have hasc : c.toNat < 128 := by
      have : ∀ c ∈ ";/?:@&=+$,#".toList, c.toNat < 128 := by decide
      exact this c h2
    rw [encode_ascii hasc] at hbm
    have hm : m = [] := by injection hbm with _ h; exact h.symm
    subst hm
    rw [encode_ascii hasc, hbm] at h1
    obtain ⟨x, y, r, rfl, hx, hr⟩ := escapes_inv h1
    cases hr
    rcases hk with ⟨k1, _, k2⟩ | ⟨_, k2, _⟩
    · rw [List.length_append] at hn
      simp only [List.length_cons] at hn
      obtain ⟨n, rfl⟩ : ∃ k, n = k + 1 := ⟨n - 1, by omega⟩
      rw [List.cons_append, List.cons_append, List.cons_append, decodeLoop, if_neg (by simp)]
      simp only [hx]
      rw [if_pos k1, ← k2, if_pos (show c ∈ preserved from h2), List.nil_append, ih n (by omega)]
      rfl
    · simp at k2

theorem char_of_small {x : UInt8} (h : leadingOnes x.toNat = 0) : String.utf8EncodeChar (Char.ofNat x.toNat) = [x] := by
  have hx : x.toNat < 128 := by
    apply Classical.byContradiction
    intro hn
    rw [leadingOnes, if_neg hn] at h
    split at h; · cases h
    split at h; · cases h
    split at h; · cases h
    split at h <;> cases h
  have hn : (Char.ofNat x.toNat).toNat = x.toNat := toNat_ofNat_valid (.inl (by omega))
  rw [encode_ascii (by rw [hn]; exact hx), hn]
  simp

theorem decode_some : ∀ (n : Nat) {s t : List Char}, decodeLoop n s = some t → LinkText s t
  | n, [], t, h => by
    have : t = [] := by cases n <;> (injection h with h; exact h.symm)
    rw [this]; exact .nil
  | 0, c :: s, t, h => by cases h
  | n + 1, c :: s, t, h => by
    unfold decodeLoop at h
    by_cases hc : c ≠ '%'
    · rw [if_pos hc, Option.map_eq_some_iff] at h
      obtain ⟨u, h1, rfl⟩ := h
      exact .plain hc (decode_some n h1)
    · rw [if_neg hc] at h
      obtain rfl : c = '%' := Classical.not_not.1 hc
      split at h
      · rename_i a b s'
        cases hx : hexOctet a b with
        | none => rw [hx] at h; cases h
        | some x =>
          rw [hx] at h
          simp only at h
          obtain ⟨m, k, h4, h5, hxe⟩ := hexOctet_iff.1 hx
          by_cases hk : leadingOnes x.toNat = 0
          · rw [if_pos hk] at h
            have he : Escapes ['%', a, b] (String.utf8EncodeChar (Char.ofNat x.toNat)) := by
              rw [char_of_small hk, hxe]
              exact .cons h4 h5 .nil
            by_cases hp : Char.ofNat x.toNat ∈ preserved
            · rw [if_pos hp, Option.map_eq_some_iff] at h
              obtain ⟨u, h1, rfl⟩ := h
              exact .kept he hp (decode_some n h1)
            · rw [if_neg hp, Option.map_eq_some_iff] at h
              obtain ⟨u, h1, rfl⟩ := h
              exact .escaped he hp (decode_some n h1)
          · rw [if_neg hk] at h
            by_cases hk2 : leadingOnes x.toNat = 1 ∨ 4 < leadingOnes x.toNat
            · rw [if_pos hk2] at h; cases h
            rw [if_neg hk2] at h
            cases hm : moreEscapes (leadingOnes x.toNat - 1) s' with
            | none => rw [hm] at h; cases h
            | some p =>
              obtain ⟨xs, r⟩ := p
              rw [hm] at h
              simp only at h
              split at h
              · rename_i d hd
                rw [Option.map_eq_some_iff] at h
                obtain ⟨u, h1, rfl⟩ := h
                obtain ⟨e, rfl, he⟩ := moreEscapes_some hm
                have henc : String.utf8EncodeChar d = x :: xs := by
                  have := (fromUtf8_iff _ _).1 hd
                  simpa [strBytes] using this.symm
                have hesc : Escapes ('%' :: a :: b :: e) (String.utf8EncodeChar d) := by
                  rw [henc, hxe]
                  exact .cons h4 h5 he
                refine .escaped (e := '%' :: a :: b :: e) hesc ?_ (decode_some n h1)
                intro hp
                have hasc : d.toNat < 128 := by
                  have : ∀ c ∈ ";/?:@&=+$,#".toList, c.toNat < 128 := by decide
                  exact this d hp
                obtain ⟨b', m', hb, hcase⟩ := ones_of_encoded d
                rw [henc] at hb
                injection hb with hb1 hb2
                subst hb1 hb2
                rw [encode_ascii hasc] at henc
                injection henc with _ henc
                subst henc
                rcases hcase with ⟨h6, _⟩ | ⟨_, h6, _⟩
                · exact hk h6
                · simp at h6
              · cases h
      · cases h

/-- C64: how the page reads a link, whoever wrote it: if the part after the `#` stands for a text, the field for the query
contains this text (with line ends as newlines); if it stands for none, the script fails and the page has no function. -/
theorem C64_links (s : List Char) :
    (∀ t, LinkText s t → loadInput ('#' :: s) = some (areaValue t)) ∧
    ((¬ ∃ t, LinkText s t) → loadInput ('#' :: s) = none) := by
  have key : loadInput ('#' :: s) = (decodeURI s).map areaValue := rfl
  rw [key]
  constructor
  · intro t h
    rw [decodeURI, decode_of h _ (Nat.le_refl _)]
    rfl
  · intro h
    cases hd : decodeURI s with
    | none => rfl
    | some t => exact absurd ⟨t, decode_some _ hd⟩ h

/-! ### Encoding -/

theorem encode_link : ∀ s : List Char, LinkText (encodeURI s) s
  | [] => .nil
  | c :: s => by
    rw [encodeURI, List.flatMap_cons]
    by_cases hc : unescapedUri c = true
    · rw [if_pos hc]
      refine .plain ?_ (encode_link s)
      rintro rfl
      exact absurd hc (by decide)
    · rw [if_neg hc]
      refine .escaped (escapes_bytes _) ?_ (encode_link s)
      intro hp
      apply hc
      rw [unescapedUri, decide_eq_true (show c ∈ preserved from hp)]
      rfl

/-- The characters of an encoded text are letters, digits and some marks. -/
theorem encode_plain (s : List Char) : ∀ c ∈ encodeURI s, c = '%' ∨ unescapedUri c = true := by
  intro c hc
  rw [encodeURI, List.mem_flatMap] at hc
  obtain ⟨d, _, hd⟩ := hc
  split at hd
  · rename_i hu
    rw [List.mem_singleton] at hd
    exact .inr (hd ▸ hu)
  · rw [List.mem_flatMap] at hd
    obtain ⟨b, _, hb⟩ := hd
    have hx : ∀ n < 16, unescapedUri (upperHex n) = true := by decide +kernel
    have hlt : b.toNat < 256 := UInt8.toNat_lt b
    simp only [escapeByte, List.mem_cons, List.not_mem_nil, or_false] at hb
    rcases hb with rfl | rfl | rfl
    · exact .inl rfl
    · exact .inr (hx _ (by omega))
    · exact .inr (hx _ (by omega))

theorem plain_safe {c : Char} (h : c = '%' ∨ unescapedUri c = true) :
    fragmentEscapes c = false ∧ c ∉ ['\t', '\n', '\r'] := by
  have hasc : c.toNat < 128 := by
    rcases h with rfl | h
    · decide
    · rw [unescapedUri, Bool.or_eq_true, Bool.or_eq_true, decide_eq_true_eq, decide_eq_true_eq] at h
      rcases h with (h | h) | h
      · have : ∀ c ∈ preserved, c.toNat < 128 := by decide
        exact this c h
      · simp only [Char.isAlphanum, Char.isAlpha, Char.isUpper, Char.isLower, Char.isDigit, Bool.or_eq_true,
          Bool.and_eq_true, decide_eq_true_eq, ge_iff_le] at h
        have hv : c.toNat = c.val.toNat := rfl
        rcases h with (⟨_, h⟩ | ⟨_, h⟩) | ⟨_, h⟩ <;>
          (have := UInt32.le_iff_toNat_le.1 h; rw [hv]; refine Nat.lt_of_le_of_lt this ?_; decide)
      · have : ∀ c ∈ "-_.!~*'()".toList, c.toNat < 128 := by decide
        exact this c h
  have table : ∀ n < 128, (Char.ofNat n = '%' ∨ unescapedUri (Char.ofNat n) = true) →
      fragmentEscapes (Char.ofNat n) = false ∧ Char.ofNat n ∉ ['\t', '\n', '\r'] := by decide +kernel
  have := table c.toNat hasc
  rw [char_of_toNat] at this
  exact this h

theorem setHash_encoded (s : List Char) : setHash ('#' :: encodeURI s) = if s = [] then [] else '#' :: encodeURI s := by
  unfold setHash
  simp only
  have h1 : (encodeURI s).filter (fun c => !(decide (c ∈ ['\t', '\n', '\r']))) = encodeURI s := by
    rw [List.filter_eq_self]
    intro c hc
    rw [decide_eq_false (plain_safe (encode_plain s c hc)).2]
    rfl
  have h2 : ∀ l : List Char, (∀ c ∈ l, fragmentEscapes c = false) → (l.flatMap fun c =>
      if fragmentEscapes c then (String.utf8EncodeChar c).flatMap escapeByte else [c]) = l := by
    intro l
    induction l with
    | nil => intro _; rfl
    | cons c l ih =>
      intro h
      rw [List.flatMap_cons, ih (fun x hx => h x (List.mem_cons_of_mem _ hx)), h c (List.mem_cons_self ..)]
      rfl
  rw [h1, h2 _ (fun c hc => (plain_safe (encode_plain s c hc)).1)]
  cases s with
  | nil => rfl
  | cons c s =>
    rw [if_neg, if_neg (by simp)]
    intro h
    rw [encodeURI, List.flatMap_cons, List.append_eq_nil_iff] at h
    obtain ⟨b, m, hb, _⟩ := first_byte c
    have h3 := h.1
    rw [hb] at h3
    split at h3 <;> simp [escapeByte] at h3

theorem areaValue_plain : ∀ {l : List Char}, '\r' ∉ l → areaValue l = l
  | [], _ => rfl
  | c :: l, h => by
    simp only [List.mem_cons, not_or] at h
    unfold areaValue
    split
    · rename_i he; cases he
    · rename_i he; injection he with he _; exact absurd he.symm h.1
    · rename_i c' l' _ he
      injection he with h1 h2
      subst h1 h2
      rw [if_neg (Ne.symm h.1), areaValue_plain h.2]

theorem areaValue_clean : ∀ (n : Nat) (l : List Char), l.length ≤ n → '\r' ∉ areaValue l
  | 0, l, h => by cases l with | nil => simp [areaValue] | cons => simp at h
  | n + 1, l, h => by
    unfold areaValue
    split
    · simp
    · rename_i l'
      simp only [List.length_cons] at h
      have := areaValue_clean n l' (by omega)
      simp [this]
    · rename_i c l' _
      simp only [List.length_cons] at h
      have := areaValue_clean n l' (by omega)
      simp only [List.mem_cons, not_or]
      refine ⟨?_, this⟩
      split
      · decide
      · rename_i hc; exact fun h => hc h.symm

/-- C64: submitting puts the query in the address of the page, and loading the page with that address puts it back in the
field, whatever it contains. (`areaValue typed` is the value of the field: what was typed or set, with line ends as
newlines.) -/
theorem C64_link (typed : List Char) : loadInput (submitHash (areaValue typed)) = some (areaValue typed) := by
  have hv := areaValue_plain (areaValue_clean _ typed (Nat.le_refl _))
  generalize areaValue typed = s at *
  rw [submitHash, setHash_encoded]
  split
  · rename_i h; rw [h]; rfl
  · rw [(C64_links _).1 s (encode_link s), hv]

/-- C64: what the address shows: letters, digits and marks only, so that it can be copied into a text. -/
theorem C64_clean (input : List Char) : ∀ c ∈ submitHash input,
    c = '#' ∨ c = '%' ∨ c.isAlphanum = true ∨ c ∈ ";/?:@&=+$,#-_.!~*'()".toList := by
  intro c hc
  rw [submitHash, setHash_encoded] at hc
  split at hc
  · cases hc
  · rw [List.mem_cons] at hc
    rcases hc with hc | hc
    · exact .inl hc
    · rcases encode_plain input c hc with h | h
      · exact .inr (.inl h)
      · rw [unescapedUri, Bool.or_eq_true, Bool.or_eq_true, decide_eq_true_eq, decide_eq_true_eq] at h
        have e : ";/?:@&=+$,#-_.!~*'()".toList = preserved ++ "-_.!~*'()".toList := by decide +kernel
        rw [e, List.mem_append]
        rcases h with (h | h) | h
        · exact .inr (.inr (.inr (.inl h)))
        · exact .inr (.inr (.inl h))
        · exact .inr (.inr (.inr (.inr h)))

/-- A query of two lines with a comment, a percent sign and an accent. -/
def sampleQuery : List Char := "#words 2\n<caf\u00e9+> 100%".toList

example : submitHash sampleQuery = "##words%202%0A%3Ccaf%C3%A9+%3E%20100%25".toList ∧
    loadInput (submitHash sampleQuery) = some sampleQuery := by decide +kernel

/-- C64: a link by hand with a stray percent sign disables the page. -/
theorem C64_counterexample : (¬ ∃ t, LinkText "100%".toList t) ∧ loadInput "#100%".toList = none ∧
    LinkText "a%3bb%41".toList "a%3bbA".toList := by
  have h : decodeURI "100%".toList = none := by decide +kernel
  refine ⟨?_, by decide +kernel, decode_some 8 (by decide +kernel)⟩
  rintro ⟨t, ht⟩
  rw [decodeURI, decode_of ht _ (Nat.le_refl _)] at h
  cases h

end Noodle
