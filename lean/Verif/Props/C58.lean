import Verif.Proofs.Utf8
import Verif.Spec.Http
import Verif.Props.C39
import Verif.Props.C53
/-
C58: which requests run which query.
-/
namespace Noodle
open Noodle.Spec
set_option autoImplicit false

theorem strBytes_eq : strBytes = utf8 := rfl

/-! ### Paths -/

theorem segment_spec : ∀ p : List Char, '/' ∉ segment p ∧
    (p = segment p ∧ afterSegment p = [] ∨ p = segment p ++ '/' :: afterSegment p)
  | [] => ⟨by simp [segment], .inl ⟨rfl, rfl⟩⟩
  | c :: p => by
    obtain ⟨h1, h2⟩ := segment_spec p
    by_cases hc : c = '/'
    · subst hc
      simp [segment, afterSegment]
    · rw [segment, afterSegment, if_neg hc, if_neg hc]
      refine ⟨by simp [h1, Ne.symm hc], ?_⟩
      rcases h2 with ⟨h2, h3⟩ | h2
      · exact .inl ⟨congrArg _ h2, h3⟩
      · exact .inr (congrArg (c :: ·) h2)

theorem segment_of {s : List Char} (h : '/' ∉ s) : (segment s = s ∧ afterSegment s = []) ∧
    ∀ rest, segment (s ++ '/' :: rest) = s ∧ afterSegment (s ++ '/' :: rest) = rest := by
  induction s with
  | nil => simp [segment, afterSegment]
  | cons c s ih =>
    have hc : c ≠ '/' := fun e => h (e ▸ List.mem_cons_self ..)
    obtain ⟨⟨h1, h2⟩, h3⟩ := ih (fun hm => h (List.mem_cons_of_mem _ hm))
    refine ⟨by simp [segment, afterSegment, hc, h1, h2], fun rest => ?_⟩
    obtain ⟨h4, h5⟩ := h3 rest
    simp [segment, afterSegment, hc, h4, h5]

theorem segment_one {p s : List Char} (h : Begins p [s]) : segment p = s := by
  obtain ⟨h1, h2⟩ := h
  have hs := segment_of (h1 s (List.mem_singleton.2 rfl))
  rcases h2 with rfl | ⟨r, rfl⟩
  · simpa [List.intercalate] using hs.1.1
  · simpa [List.intercalate] using (hs.2 r).1

theorem segment_two {p s t : List Char} (h : Begins p [s, t]) : segment p = s ∧ segment (afterSegment p) = t := by
  obtain ⟨h1, h2⟩ := h
  have hs := segment_of (h1 s (by simp))
  have ht := segment_of (h1 t (by simp))
  rcases h2 with rfl | ⟨r, rfl⟩
  · have := hs.2 t
    simp only [List.intercalate, List.intersperse, List.flatten_cons, List.flatten_nil, List.append_nil,
      List.singleton_append]
    rw [this.1, this.2]
    exact ⟨rfl, ht.1.1⟩
  · have := hs.2 (t ++ '/' :: r)
    simp only [List.intercalate, List.intersperse, List.flatten_cons, List.flatten_nil, List.append_nil,
      List.append_assoc, List.cons_append, List.nil_append]
    rw [this.1, this.2]
    exact ⟨rfl, (ht.2 r).1⟩

theorem begins_one (p : List Char) : Begins p [segment p] := by
  obtain ⟨h1, h2⟩ := segment_spec p
  refine ⟨by simpa using h1, ?_⟩
  rcases h2 with ⟨h2, _⟩ | h2
  · exact .inl (by simpa [List.intercalate] using h2)
  · exact .inr ⟨afterSegment p, by simpa [List.intercalate] using h2⟩

theorem begins_two {p : List Char} (h : segment (afterSegment p) ≠ []) :
    Begins p [segment p, segment (afterSegment p)] := by
  obtain ⟨h1, h2⟩ := segment_spec p
  obtain ⟨h3, h4⟩ := segment_spec (afterSegment p)
  refine ⟨by simpa using ⟨h1, h3⟩, ?_⟩
  rcases h2 with ⟨_, h2⟩ | h2
  · rw [h2] at h; exact absurd rfl h
  · rcases h4 with ⟨h4, _⟩ | h4
    · left
      simp only [List.intercalate, List.intersperse, List.flatten_cons, List.flatten_nil, List.append_nil,
        List.singleton_append]
      rw [← h4]; exact h2
    · right
      refine ⟨afterSegment (afterSegment p), ?_⟩
      simp only [List.intercalate, List.intersperse, List.flatten_cons, List.flatten_nil, List.append_nil,
        List.append_assoc, List.cons_append, List.nil_append]
      rw [← h4]; exact h2

/-! ### Percent-encoding -/

theorem encode_ascii {c : Char} (h : c.toNat < 128) : String.utf8EncodeChar c = [UInt8.ofNat c.toNat] := by
  unfold String.utf8EncodeChar
  exact if_pos (show c.val.toNat ≤ 127 by have : c.toNat = c.val.toNat := rfl; omega)

theorem hexDigit_bounds {c : Char} {v : Nat} (h : HexDigit c v) : c.toNat < 128 ∧ v < 16 ∧
    hexValue (UInt8.ofNat c.toNat) = some v := by
  have hv : v < 16 := by
    rcases h with h | h <;> have := (List.getElem?_eq_some_iff.1 h).1 <;> simpa using this
  have key : ∀ v < 16, ∀ l ∈ ["0123456789abcdef".toList, "0123456789ABCDEF".toList], ∀ c, l[v]? = some c →
      c.toNat < 128 ∧ hexValue (UInt8.ofNat c.toNat) = some v := by
    have : ∀ v < 16, ∀ l ∈ ["0123456789abcdef".toList, "0123456789ABCDEF".toList],
      (l[v]?.all fun c => decide (c.toNat < 128) && (hexValue (UInt8.ofNat c.toNat) == some v)) = true := by
      decide +kernel
    intro v hv l hl c hc
    have := this v hv l hl
    rw [hc] at this
    simpa using this
  rcases h with h | h
  · have := key v hv _ (by simp) c h; exact ⟨this.1, hv, this.2⟩
  · have := key v hv _ (by simp) c h; exact ⟨this.1, hv, this.2⟩

theorem first_byte (c : Char) : ∃ b m, String.utf8EncodeChar c = b :: m ∧ (c.toNat < 128 ∧ m = [] ∧ b = UInt8.ofNat c.toNat ∨
    128 ≤ c.toNat ∧ 192 ≤ b.toNat ∧ ∀ x ∈ m, 128 ≤ x.toNat) := by
  have hc := char_cases c
  have hv : c.val.toNat = c.toNat := rfl
  unfold String.utf8EncodeChar
  rw [hv]
  simp only
  generalize c.toNat = n at *
  split
  · exact ⟨_, _, rfl, .inl ⟨by omega, rfl, rfl⟩⟩
  split
  · refine ⟨_, _, rfl, .inr ⟨by omega, ?_, ?_⟩⟩
    · rw [ofNat_toNat8 (by omega)]; omega
    · simp only [List.mem_cons, List.not_mem_nil, or_false, forall_eq]
      rw [ofNat_toNat8 (by omega)]; omega
  split
  · refine ⟨_, _, rfl, .inr ⟨by omega, ?_, ?_⟩⟩
    · rw [ofNat_toNat8 (by omega)]; omega
    · simp only [List.mem_cons, List.not_mem_nil, or_false, forall_eq_or_imp, forall_eq]
      rw [ofNat_toNat8 (by omega), ofNat_toNat8 (by omega)]; omega
  · refine ⟨_, _, rfl, .inr ⟨by omega, ?_, ?_⟩⟩
    · rw [ofNat_toNat8 (by omega)]; omega
    · simp only [List.mem_cons, List.not_mem_nil, or_false, forall_eq_or_imp, forall_eq]
      rw [ofNat_toNat8 (by omega), ofNat_toNat8 (by omega), ofNat_toNat8 (by omega)]; omega

theorem hexValue_char {c : Char} {b : UInt8} {m : List UInt8} {v : Nat} (h : String.utf8EncodeChar c = b :: m)
    (hv : hexValue b = some v) : HexDigit c v ∧ m = [] := by
  obtain ⟨b', m', h1, h2⟩ := first_byte c
  rw [h] at h1
  injection h1 with hb hm
  subst hb hm
  rcases h2 with ⟨h2, h3, h4⟩ | ⟨_, h2, _⟩
  · refine ⟨?_, h3⟩
    have key : ∀ n < 128, ∀ v, hexValue (UInt8.ofNat n) = some v →
        ("0123456789abcdef".toList[v]? = some (Char.ofNat n) ∨ "0123456789ABCDEF".toList[v]? = some (Char.ofNat n)) := by
      have : ∀ n < 128, ((hexValue (UInt8.ofNat n)).all fun v => "0123456789abcdef".toList[v]? == some (Char.ofNat n) ||
          "0123456789ABCDEF".toList[v]? == some (Char.ofNat n)) = true := by decide +kernel
      intro n hn v hv
      have := this n hn
      rw [hv] at this
      simpa using this
    have := key c.toNat h2 v (h4 ▸ hv)
    rw [char_of_toNat] at this
    exact this
  · exfalso
    unfold hexValue at hv
    simp only at hv
    rw [if_neg (by omega), if_neg (by omega), if_neg (by omega)] at hv
    cases hv

theorem percent_plain {m : List UInt8} (h : ∀ x ∈ m, x ≠ 37) (l : List UInt8) :
    percentDecode 0 (m ++ l) = m ++ percentDecode 0 l := by
  induction m with
  | nil => rfl
  | cons b m ih =>
    rw [List.cons_append, percentDecode, if_neg (h b (List.mem_cons_self ..)),
      ih (fun x hx => h x (List.mem_cons_of_mem _ hx))]
    rfl

theorem not_percent {c : Char} (h : c ≠ '%') : ∀ x ∈ String.utf8EncodeChar c, x ≠ 37 := by
  obtain ⟨b, m, h1, h2⟩ := first_byte c
  rw [h1]
  intro x hx hx37
  subst hx37
  rcases h2 with ⟨h2, h3, h4⟩ | ⟨_, h2, h3⟩
  · rw [h3, List.mem_singleton, h4] at hx
    have : c.toNat = 37 := by
      have := congrArg UInt8.toNat hx
      rw [ofNat_toNat8 (by omega)] at this
      exact this.symm
    refine h ?_
    rw [← char_of_toNat c, this]
  · rcases List.mem_cons.1 hx with hx | hx
    · rw [← hx] at h2; exact absurd h2 (by decide)
    · exact absurd (h3 _ hx) (by decide)

theorem percent_encode : String.utf8EncodeChar '%' = [37] := by decide +kernel

/-- Whether two bytes after a `%` are hexadecimal digits is whether two characters are. -/
theorem escaped_utf8 (s : List Char) :
    (∃ h l s' a b, s = h :: l :: s' ∧ HexDigit h a ∧ HexDigit l b ∧ escaped (utf8 s) = some (UInt8.ofNat (16 * a + b))) ∨
    (∀ h l s' a b, s = h :: l :: s' → HexDigit h a → HexDigit l b → False) ∧ escaped (utf8 s) = none := by
  cases s with
  | nil => exact .inr ⟨by simp, rfl⟩
  | cons h s =>
    obtain ⟨b, m, h1, h2⟩ := first_byte h
    have e1 : utf8 (h :: s) = b :: (m ++ utf8 s) := by
      rw [utf8, List.flatMap_cons, h1]; rfl
    cases hv : hexValue b with
    | none =>
      refine .inr ⟨?_, ?_⟩
      · intro h' l s' a' b' he hh hl
        injection he with he1 he2
        subst he1
        obtain ⟨k1, _, k3⟩ := hexDigit_bounds hh
        rw [encode_ascii k1] at h1
        injection h1 with h1
        rw [h1, hv] at k3
        cases k3
      · rw [e1]
        cases hm : m ++ utf8 s with
        | nil => rfl
        | cons x y => simp only [escaped, hv]
    | some a =>
      obtain ⟨hd, hm⟩ := hexValue_char h1 hv
      subst hm
      rw [List.nil_append] at e1
      cases s with
      | nil => exact .inr ⟨(by simp), (by rw [e1]; rfl)⟩
      | cons l s =>
        obtain ⟨b2, m2, h3, h4⟩ := first_byte l
        have e2 : utf8 (l :: s) = b2 :: (m2 ++ utf8 s) := by
          rw [utf8, List.flatMap_cons, h3]; rfl
        cases hv2 : hexValue b2 with
        | none =>
          refine .inr ⟨?_, ?_⟩
          · intro h' l' s' a' b' he hh hl
            injection he with he1 he2
            injection he2 with he2 he3
            subst he2
            obtain ⟨k1, _, k3⟩ := hexDigit_bounds hl
            rw [encode_ascii k1] at h3
            injection h3 with h3
            rw [h3, hv2] at k3
            cases k3
          · rw [e1, e2]
            simp only [escaped, hv, hv2]
        | some a2 =>
          obtain ⟨hd2, _⟩ := hexValue_char h3 hv2
          refine .inl ⟨h, l, s, a, a2, rfl, hd, hd2, ?_⟩
          rw [e1, e2]
          simp only [escaped, hv, hv2]

theorem hexDigit_unique {c : Char} {a b : Nat} (h : HexDigit c a) (k : HexDigit c b) : a = b := by
  have h1 := (hexDigit_bounds h).2.2
  rw [(hexDigit_bounds k).2.2] at h1
  exact (Option.some.inj h1).symm

/-- The program's decoding is the one of the specification. -/
theorem percent_iff : ∀ {s : List Char} {bs : List UInt8}, Encoded bs s → percentDecode 0 (utf8 s) = bs := by
  intro s bs h
  induction h with
  | nil => rfl
  | @plain c bs s hc _ ih =>
    rw [utf8, List.flatMap_cons, percent_plain (not_percent hc)]
    show _ ++ percentDecode 0 (utf8 s) = _
    rw [ih]
  | @escape h l a b bs s hh hl _ ih =>
    have e : utf8 ('%' :: h :: l :: s) = 37 :: utf8 (h :: l :: s) := by
      rw [utf8, List.flatMap_cons, percent_encode]; rfl
    rcases escaped_utf8 (h :: l :: s) with ⟨h', l', s', a', b', he, k1, k2, k3⟩ | ⟨k1, _⟩
    · injection he with he1 he2
      injection he2 with he2 he3
      subst he1 he2 he3
      rw [hexDigit_unique hh k1, hexDigit_unique hl k2]
      rw [e, percentDecode, if_pos rfl, k3]
      simp only
      have e2 : utf8 (h :: l :: s) = UInt8.ofNat h.toNat :: UInt8.ofNat l.toNat :: utf8 s := by
        rw [utf8, List.flatMap_cons, List.flatMap_cons, encode_ascii (hexDigit_bounds hh).1,
          encode_ascii (hexDigit_bounds hl).1]
        rfl
      rw [e2]
      show _ :: percentDecode 0 (utf8 s) = _
      rw [ih]
    · exact absurd rfl (fun e => k1 h l s a b e hh hl)
  | @stray bs s hs _ ih =>
    have e : utf8 ('%' :: s) = 37 :: utf8 s := by
      rw [utf8, List.flatMap_cons, percent_encode]; rfl
    rcases escaped_utf8 s with ⟨h', l', s', a', b', he, k1, k2, _⟩ | ⟨_, k2⟩
    · exact absurd he (fun e => hs _ _ _ _ _ e k1 k2)
    · rw [e, percentDecode, if_pos rfl, k2]
      show 37 :: percentDecode 0 (utf8 s) = _
      rw [ih]
      rfl

theorem encoded_exists (s : List Char) : ∃ bs, Encoded bs s := by
  induction hn : s.length using Nat.strongRecOn generalizing s with
  | _ n ih =>
    cases s with
    | nil => exact ⟨[], .nil⟩
    | cons c s =>
      by_cases hc : c = '%'
      · subst hc
        rcases escaped_utf8 s with ⟨h', l', s', a', b', he, k1, k2, _⟩ | ⟨k1, _⟩
        · subst he
          obtain ⟨bs, hb⟩ := ih s'.length (by rw [← hn]; simp; omega) s' rfl
          exact ⟨_, .escape k1 k2 hb⟩
        · obtain ⟨bs, hb⟩ := ih s.length (by rw [← hn]; simp) s rfl
          exact ⟨_, .stray k1 hb⟩
      · obtain ⟨bs, hb⟩ := ih s.length (by rw [← hn]; simp) s rfl
        exact ⟨_, .plain hc hb⟩

/-! ### Requests -/

theorem route_get {r : Request} (hm : r.method = .get) :
    route r = ((getQueryRoute r).orElse fun _ => (wsRoute r).orElse fun _ =>
      (wordlistRoute r).orElse fun _ => (wordlistJsRoute r).orElse fun _ => metricsRoute r).getD .other := by
  have : postQueryRoute r = none := by rw [postQueryRoute, if_neg (by rw [hm]; decide)]
  rw [route, this]
  rfl

theorem route_post {r : Request} (hm : r.method = .post) : route r = (postQueryRoute r).getD .other := by
  have h1 : getQueryRoute r = none := by rw [getQueryRoute, if_neg (by rw [hm]; decide)]
  have h2 : wordlistRoute r = none := by rw [wordlistRoute, if_neg (by rw [hm]; decide)]
  have h3 : wordlistJsRoute r = none := by rw [wordlistJsRoute, if_neg (by rw [hm]; decide)]
  have h4 : metricsRoute r = none := by rw [metricsRoute, if_neg (by rw [hm]; decide)]
  have h5 : wsRoute r = none := by
    rw [wsRoute, pathFilter]
    split
    · simp [hm]
    · rfl
  rw [route, h1, h2, h3, h4, h5]
  cases postQueryRoute r <;> rfl

theorem getQuery_eq {r : Request} (hm : r.method = .get) (hp : segment r.path = "query".toList)
    (hq : segment (afterSegment r.path) ≠ []) : getQueryRoute r =
      some (.query (fromUtf8Lossy (percentDecode 0 (strBytes (segment (afterSegment r.path))))) true) := by
  rw [getQueryRoute, if_pos hm, pathFilter, if_pos hp]
  show (pathParam _).map _ = _
  rw [pathParam, if_neg hq]
  rfl

/-- C58: a GET of `/query/` and a percent-encoding of a text (in UTF-8, in any way: letters escaped or not, digits of
either case) runs the query that the text is, and the answer is plain text. Further segments of the path are ignored. -/
theorem C58_get {r : Request} {t s : List Char} (hm : r.method = .get) (he : Encoded (utf8 t) s) (hs : s ≠ [])
    (hp : Begins r.path ["query".toList, s]) : route r = .query t true := by
  obtain ⟨h1, h2⟩ := segment_two hp
  rw [route_get hm, getQuery_eq hm h1 (by rw [h2]; exact hs), h2, strBytes_eq, percent_iff he, ← strBytes_eq, lossy_bytes]
  rfl

/-- C58: a POST of at most 65536 bytes to `/query` runs the query in its body, and the answer is JSON; if the body is
not UTF-8 the handler panics. A longer one, or one that does not tell its length, is refused. -/
theorem C58_post {r : Request} (hm : r.method = .post) (hp : Begins r.path ["query".toList]) :
    (∀ n t, r.length = some n → n ≤ 65536 → r.body = utf8 t → route r = .query t false) ∧
    (∀ n, r.length = some n → n ≤ 65536 → (¬ ∃ t, r.body = utf8 t) → route r = .panicked) ∧
    ((∀ n, r.length = some n → 65536 < n) → route r = .other) := by
  have h1 := segment_one hp
  rw [route_post hm, postQueryRoute, if_pos hm, pathFilter, if_pos h1]
  refine ⟨?_, ?_, ?_⟩
  · intro n t hn hle hb
    have := (fromUtf8_iff r.body t).2 hb
    simp only [Option.bind_some, hn, if_neg (show ¬ 64 * 1024 < n by omega), this, Option.getD_some]
  · intro n hn hle hb
    have : fromUtf8 r.body = none := by
      cases h : fromUtf8 r.body with
      | none => rfl
      | some t => exact absurd ⟨t, (fromUtf8_iff r.body t).1 h⟩ hb
    simp only [Option.bind_some, hn, if_neg (show ¬ 64 * 1024 < n by omega), this, Option.getD_some]
  · intro h
    cases hn : r.length with
    | none => simp
    | some n => simp [show 65536 < n from h n hn]

/-- C58: what a GET asks for need not be UTF-8: every part of it that is invalid is read as one U+FFFD. -/
theorem C58_invalid {r : Request} {bs : List UInt8} {t s : List Char} (hm : r.method = .get) (he : Encoded bs s)
    (hr : ReadAs bs t) (hs : s ≠ []) (hp : Begins r.path ["query".toList, s]) : route r = .query t true := by
  obtain ⟨h1, h2⟩ := segment_two hp
  rw [route_get hm, getQuery_eq hm h1 (by rw [h2]; exact hs), h2, strBytes_eq, percent_iff he, lossy_iff.2 hr]
  rfl

/-- C58: bytes that are the UTF-8 of a text are read as that text and no other, and all others as a text with U+FFFD. -/
theorem C58_read (bs : List UInt8) (t : List Char) :
    (∀ u, bs = utf8 u → (ReadAs bs t ↔ t = u)) ∧ ((¬ ∃ u, bs = utf8 u) → ReadAs bs t → Char.ofNat 0xFFFD ∈ t) := by
  refine ⟨fun u hu => ?_, fun hu h => ?_⟩
  · rw [← lossy_iff, hu, ← strBytes_eq, lossy_bytes]
    exact eq_comm
  · rw [← lossy_iff.2 h]
    exact lossy_invalid hu

/-- C58: nothing else runs a query: if a text is run as one, then it was posted, or it is what the second segment of the
path of a GET stands for. -/
theorem C58_only {r : Request} {t : List Char} {plain : Bool} (h : route r = .query t plain) :
    (plain = true ∧ r.method = .get ∧ ∃ s bs, s ≠ [] ∧ Begins r.path ["query".toList, s] ∧ Encoded bs s ∧ ReadAs bs t) ∨
    (plain = false ∧ r.method = .post ∧ Begins r.path ["query".toList] ∧ r.body = utf8 t ∧
      ∃ n, r.length = some n ∧ n ≤ 65536) := by
  have hrest : ∀ o : Option Handled, o = wsRoute r ∨ o = wordlistRoute r ∨ o = wordlistJsRoute r ∨ o = metricsRoute r →
      o ≠ some (.query t plain) := by
    rintro o (rfl | rfl | rfl | rfl)
    · rw [wsRoute, pathFilter]; split
      · simp only [Option.bind_some]; split <;> simp
      · simp
    · rw [wordlistRoute, pathFilter]; split
      · split
        · simp only [Option.bind_some]; rw [pathParam]; split <;> simp
        · simp
      · simp
    · rw [wordlistJsRoute, pathFilter]; split
      · split <;> simp
      · simp
    · rw [metricsRoute, pathFilter]; split
      · split <;> simp
      · simp
  have hr : getQueryRoute r = some (.query t plain) ∨ postQueryRoute r = some (.query t plain) := by
    unfold route at h
    cases h1 : getQueryRoute r with
    | some x => rw [h1] at h; exact .inl (congrArg some h)
    | none =>
      cases h2 : postQueryRoute r with
      | some x => rw [h1, h2] at h; exact .inr (congrArg some h)
      | none =>
        exfalso
        rw [h1, h2] at h
        cases h3 : wsRoute r with
        | some x => rw [h3] at h; exact hrest _ (.inl rfl) (h3.trans (congrArg some h))
        | none =>
          cases h4 : wordlistRoute r with
          | some x => rw [h3, h4] at h; exact hrest _ (.inr (.inl rfl)) (h4.trans (congrArg some h))
          | none =>
            cases h5 : wordlistJsRoute r with
            | some x => rw [h3, h4, h5] at h; exact hrest _ (.inr (.inr (.inl rfl))) (h5.trans (congrArg some h))
            | none =>
              cases h6 : metricsRoute r with
              | some x =>
                rw [h3, h4, h5, h6] at h; exact hrest _ (.inr (.inr (.inr rfl))) (h6.trans (congrArg some h))
              | none => rw [h3, h4, h5, h6] at h; cases h
  rcases hr with hr | hr
  · left
    unfold getQueryRoute at hr
    split at hr
    · rename_i hm
      unfold pathFilter at hr
      split at hr
      · rename_i hp
        simp only [Option.bind_some, pathParam] at hr
        split at hr
        · cases hr
        · rename_i hq
          simp only [Option.map_some, Option.some.injEq, Handled.query.injEq] at hr
          obtain ⟨bs, hb⟩ := encoded_exists (segment (afterSegment r.path))
          refine ⟨hr.2.symm, hm, _, bs, hq, hp ▸ begins_two hq, hb, ?_⟩
          have ht := hr.1
          rw [strBytes_eq, percent_iff hb] at ht
          exact lossy_iff.1 ht
      · cases hr
    · cases hr
  · right
    unfold postQueryRoute at hr
    split at hr
    · rename_i hm
      unfold pathFilter at hr
      split at hr
      · rename_i hp
        simp only [Option.bind_some] at hr
        cases hl : r.length with
        | none => rw [hl] at hr; cases hr
        | some n =>
          rw [hl] at hr
          simp only at hr
          split at hr
          · cases hr
          · rename_i hn
            cases hu : fromUtf8 r.body with
            | none => rw [hu] at hr; simp at hr
            | some u =>
              rw [hu] at hr
              simp only [Option.some.injEq, Handled.query.injEq] at hr
              obtain ⟨rfl, hr⟩ := hr
              exact ⟨hr.symm, hm, hp ▸ begins_one r.path, (fromUtf8_iff r.body u).1 hu, n, rfl, by omega⟩
      · cases hr
    · cases hr

/-- C58: the answers: both ways run the same query, as in C39, with the two forms of the answer. -/
theorem C58_answers {U : Unicode} {errorText : List Char → List Char} {ds : Dicts} {active total : Nat}
    {clks : List Clock} {g p : Request} {t s : List Char} {n : Nat}
    (hg : g.method = .get) (he : Encoded (utf8 t) s) (hs : s ≠ []) (hgp : Begins g.path ["query".toList, s])
    (hp : p.method = .post) (hpp : Begins p.path ["query".toList]) (hb : p.body = utf8 t) (hn : p.length = some n)
    (hle : n ≤ 65536) :
    answerBody U errorText ds active total clks g = syncBody U errorText ds t true clks ∧
    answerBody U errorText ds active total clks p = syncBody U errorText ds t false clks := by
  unfold answerBody
  rw [C58_get hg he hs hgp, (C58_post hp hpp).1 n t hn hle hb]
  exact ⟨rfl, rfl⟩

theorem route_some {r : Request} {h : Handled} (hr : route r = h) (ho : h ≠ .other) :
    getQueryRoute r = some h ∨ postQueryRoute r = some h ∨ wsRoute r = some h ∨ wordlistRoute r = some h ∨
      wordlistJsRoute r = some h ∨ metricsRoute r = some h := by
  unfold route at hr
  cases e1 : getQueryRoute r with
  | some x => rw [e1] at hr; exact .inl (congrArg some hr)
  | none =>
    cases e2 : postQueryRoute r with
    | some x => rw [e1, e2] at hr; exact .inr (.inl (congrArg some hr))
    | none =>
      cases e3 : wsRoute r with
      | some x => rw [e1, e2, e3] at hr; exact .inr (.inr (.inl (congrArg some hr)))
      | none =>
        cases e4 : wordlistRoute r with
        | some x => rw [e1, e2, e3, e4] at hr; exact .inr (.inr (.inr (.inl (congrArg some hr))))
        | none =>
          cases e5 : wordlistJsRoute r with
          | some x => rw [e1, e2, e3, e4, e5] at hr; exact .inr (.inr (.inr (.inr (.inl (congrArg some hr)))))
          | none =>
            cases e6 : metricsRoute r with
            | some x => rw [e1, e2, e3, e4, e5, e6] at hr; exact .inr (.inr (.inr (.inr (.inr (congrArg some hr)))))
            | none => rw [e1, e2, e3, e4, e5, e6] at hr; exact absurd hr.symm ho

theorem getQuery_some {r : Request} {h : Handled} (hr : getQueryRoute r = some h) : ∃ t, h = .query t true := by
  unfold getQueryRoute pathFilter pathParam at hr
  split at hr
  · split at hr
    · simp only [Option.bind_some] at hr
      split at hr
      · cases hr
      · cases hr; exact ⟨_, rfl⟩
    · cases hr
  · cases hr

theorem postQuery_some {r : Request} {h : Handled} (hr : postQueryRoute r = some h) :
    (∃ t, h = .query t false) ∨ h = .panicked := by
  unfold postQueryRoute pathFilter at hr
  split at hr
  · split at hr
    · simp only [Option.bind_some] at hr
      cases hl : r.length with
      | none => rw [hl] at hr; cases hr
      | some n =>
        simp only [hl] at hr
        split at hr
        · cases hr
        · cases hu : fromUtf8 r.body with
          | none => rw [hu] at hr; cases hr; exact .inr rfl
          | some t => rw [hu] at hr; cases hr; exact .inl ⟨t, rfl⟩
    · cases hr
  · cases hr

theorem ws_some {r : Request} {h : Handled} (hr : wsRoute r = some h) :
    h = .socket ∧ r.method = .get ∧ r.upgrade = true ∧ Begins r.path ["ws".toList] := by
  unfold wsRoute pathFilter at hr
  split at hr
  · rename_i hp
    simp only [Option.bind_some] at hr
    split at hr
    · rename_i hm
      cases hr
      exact ⟨rfl, hm.1, hm.2, hp ▸ begins_one r.path⟩
    · cases hr
  · cases hr

theorem wordlist_some {r : Request} {h : Handled} (hr : wordlistRoute r = some h) :
    ∃ name, h = .wordlist name ∧ r.method = .get ∧ name ≠ [] ∧ Begins r.path ["wordlist".toList, name] := by
  unfold wordlistRoute pathFilter pathParam at hr
  split at hr
  · rename_i hm
    split at hr
    · rename_i hp
      simp only [Option.bind_some] at hr
      split at hr
      · cases hr
      · rename_i hq
        cases hr
        exact ⟨_, rfl, hm, hq, hp ▸ begins_two hq⟩
    · cases hr
  · cases hr

theorem wordlistJs_some {r : Request} {h : Handled} (hr : wordlistJsRoute r = some h) :
    h = .wordlistJs ∧ r.method = .get ∧ Begins r.path ["wordlists.js".toList] := by
  unfold wordlistJsRoute pathFilter at hr
  split at hr
  · rename_i hm
    split at hr
    · rename_i hp
      cases hr
      exact ⟨rfl, hm, hp ▸ begins_one r.path⟩
    · cases hr
  · cases hr

theorem metrics_some {r : Request} {h : Handled} (hr : metricsRoute r = some h) :
    h = .metrics ∧ r.method = .get ∧ Begins r.path ["metrics".toList] := by
  unfold metricsRoute pathFilter at hr
  split at hr
  · rename_i hm
    split at hr
    · rename_i hp
      cases hr
      exact ⟨rfl, hm, hp ▸ begins_one r.path⟩
    · cases hr
  · cases hr

/-- C58: the other pages, exactly. The name of a word list is taken from the path as it is. -/
theorem C58_pages (r : Request) :
    (∀ name, route r = .wordlist name ↔ r.method = .get ∧ name ≠ [] ∧ Begins r.path ["wordlist".toList, name]) ∧
    (route r = .wordlistJs ↔ r.method = .get ∧ Begins r.path ["wordlists.js".toList]) ∧
    (route r = .metrics ↔ r.method = .get ∧ Begins r.path ["metrics".toList]) ∧
    (route r = .socket ↔ r.method = .get ∧ r.upgrade = true ∧ Begins r.path ["ws".toList]) := by
  have inv : ∀ h, route r = h → h ≠ .other → (∀ t b, h ≠ .query t b) → h ≠ .panicked →
      (h = .socket ∧ r.method = .get ∧ r.upgrade = true ∧ Begins r.path ["ws".toList]) ∨
      (∃ name, h = .wordlist name ∧ r.method = .get ∧ name ≠ [] ∧ Begins r.path ["wordlist".toList, name]) ∨
      (h = .wordlistJs ∧ r.method = .get ∧ Begins r.path ["wordlists.js".toList]) ∨
      (h = .metrics ∧ r.method = .get ∧ Begins r.path ["metrics".toList]) := by
    intro h hr ho hq hp
    rcases route_some hr ho with e | e | e | e | e | e
    · obtain ⟨t, rfl⟩ := getQuery_some e; exact absurd rfl (hq t true)
    · rcases postQuery_some e with ⟨t, rfl⟩ | rfl
      · exact absurd rfl (hq t false)
      · exact absurd rfl hp
    · exact .inl (ws_some e)
    · exact .inr (.inl (wordlist_some e))
    · exact .inr (.inr (.inl (wordlistJs_some e)))
    · exact .inr (.inr (.inr (metrics_some e)))
  refine ⟨fun name => ⟨fun h => ?_, fun ⟨hm, hn, hp⟩ => ?_⟩, ⟨fun h => ?_, fun ⟨hm, hp⟩ => ?_⟩,
    ⟨fun h => ?_, fun ⟨hm, hp⟩ => ?_⟩, ⟨fun h => ?_, fun ⟨hm, hu, hp⟩ => ?_⟩⟩
  · rcases inv _ h (by simp) (by simp) (by simp) with ⟨e, _⟩ | ⟨n, e, h⟩ | ⟨e, _⟩ | ⟨e, _⟩
    · cases e
    · cases e; exact h
    · cases e
    · cases e
  · obtain ⟨h1, h2⟩ := segment_two hp
    rw [route_get hm]
    simp only [getQueryRoute, wsRoute, wordlistRoute, pathFilter, if_pos hm, h1, pathParam]
    simp [hn, h2]
  · rcases inv _ h (by simp) (by simp) (by simp) with ⟨e, _⟩ | ⟨n, e, h⟩ | ⟨e, h⟩ | ⟨e, _⟩
    · cases e
    · cases e
    · exact h
    · cases e
  · rw [route_get hm]
    simp only [getQueryRoute, wsRoute, wordlistRoute, wordlistJsRoute, pathFilter, if_pos hm, segment_one hp]
    simp
  · rcases inv _ h (by simp) (by simp) (by simp) with ⟨e, _⟩ | ⟨n, e, h⟩ | ⟨e, h⟩ | ⟨e, h⟩
    · cases e
    · cases e
    · cases e
    · exact h
  · rw [route_get hm]
    simp only [getQueryRoute, wsRoute, wordlistRoute, wordlistJsRoute, metricsRoute, pathFilter, if_pos hm, segment_one hp]
    simp
  · rcases inv _ h (by simp) (by simp) (by simp) with ⟨_, h⟩ | ⟨n, e, h⟩ | ⟨e, h⟩ | ⟨e, h⟩
    · exact h
    · cases e
    · cases e
    · cases e
  · rw [route_get hm]
    simp only [getQueryRoute, wsRoute, pathFilter, segment_one hp, hm, hu]
    simp

/-- C58: what is answered there: a GET of `/wordlist/` and a name brings the words of the dictionary with the name, one
a line (or those of `default`); `/wordlists.js` and `/metrics` bring the texts that C53 is about. -/
theorem C58_bodies {U : Unicode} {errorText : List Char → List Char} {dir : List DirEntry} {active total : Nat}
    {clks : List Clock} {r : Request} (hm : r.method = .get) :
    (∀ name wl, name ≠ [] → Begins r.path ["wordlist".toList, name] →
      (HasDict U dir name wl ∨ (∀ ws, ¬ HasDict U dir name ws) ∧ HasDict U dir "default".toList wl) →
      answerBody U errorText (loadDir U [] dir) active total clks r = .ok (some (listText wl))) ∧
    (Begins r.path ["wordlists.js".toList] →
      answerBody U errorText (loadDir U [] dir) active total clks r = .ok (some (wordlistJs (loadDir U [] dir)))) ∧
    (Begins r.path ["metrics".toList] → answerBody U errorText (loadDir U [] dir) active total clks r =
      .ok (some (metricsText active total (loadDir U [] dir)))) := by
  obtain ⟨h1, h2, h3, _⟩ := C58_pages r
  refine ⟨fun name wl hn hp hd => ?_, fun hp => ?_, fun hp => ?_⟩
  · have : getWordlist (loadDir U [] dir) name = .ok (listText wl) := by
      obtain ⟨g1, g2, _⟩ := C54_served U dir name
      rcases hd with hd | ⟨hd, hd'⟩
      · exact g1 wl hd
      · exact g2 hd wl hd'
    unfold answerBody
    rw [(h1 name).2 ⟨hm, hn, hp⟩]
    simp only [this]
    rfl
  · unfold answerBody
    rw [h2.2 ⟨hm, hp⟩]
  · unfold answerBody
    rw [h3.2 ⟨hm, hp⟩]

/-- C58 does not extend to the names of word lists: as the name is not decoded, a list the name of which has a character
that no path has (a blank, for instance) cannot be asked for. -/
theorem C58_names_counterexample {r : Request} {name : List Char} (hp : ' ' ∉ r.path) (h : route r = .wordlist name) :
    ' ' ∉ name := by
  obtain ⟨_, _, _, h⟩ := ((C58_pages r).1 name).1 h
  intro hn
  refine hp ?_
  rcases h with h | ⟨rest, h⟩ <;> rw [h] <;> simp [List.intercalate, hn]

/-! ### Examples -/

example : route ⟨.get, "wordlist/uk/x".toList, false, none, []⟩ = .wordlist "uk".toList :=
  ((C58_pages _).1 _).2 ⟨rfl, by decide, by decide +kernel, .inr ⟨['x'], by decide +kernel⟩⟩

/-- `GET /query/caf%C3%a9%20%2f%2fx/y` runs `café //x`. -/
def sampleGet : Request := ⟨.get, "query/caf%C3%a9%20%2f%2fx/y".toList, false, none, []⟩

theorem sampleGet_encoded : Encoded (utf8 "café //x".toList) "caf%C3%a9%20%2f%2fx".toList := by
  have e : utf8 "café //x".toList = String.utf8EncodeChar 'c' ++ (String.utf8EncodeChar 'a' ++ (String.utf8EncodeChar 'f' ++
      (UInt8.ofNat (16 * 12 + 3) :: UInt8.ofNat (16 * 10 + 9) :: UInt8.ofNat (16 * 2 + 0) :: UInt8.ofNat (16 * 2 + 15) ::
        UInt8.ofNat (16 * 2 + 15) :: (String.utf8EncodeChar 'x' ++ [])))) := by decide +kernel
  rw [e]
  exact .plain (by decide) (.plain (by decide) (.plain (by decide)
    (.escape (.inr (by decide +kernel)) (.inl (by decide +kernel)) (.escape (.inl (by decide +kernel)) (.inl (by decide +kernel))
      (.escape (.inl (by decide +kernel)) (.inl (by decide +kernel)) (.escape (.inl (by decide +kernel)) (.inl (by decide +kernel))
        (.escape (.inl (by decide +kernel)) (.inl (by decide +kernel)) (.plain (by decide) .nil))))))))

example : route sampleGet = .query "café //x".toList true :=
  C58_get rfl sampleGet_encoded (by decide +kernel) ⟨by decide +kernel, .inr ⟨"y".toList, by decide +kernel⟩⟩

example : route ⟨.post, "query".toList, false, some 3, [97, 195, 169]⟩ = .query "aé".toList false :=
  (C58_post rfl ⟨by decide +kernel, .inl (by decide +kernel)⟩).1 3 _ rfl (by decide) (by decide +kernel)

/-- Half an `é` and a `b`. -/
example : route ⟨.get, "query/a%C3b".toList, false, none, []⟩ = .query "a\uFFFDb".toList true := by
  refine C58_invalid (bs := [97, 0xC3, 98]) rfl ?_ (lossy_iff.1 (by decide +kernel)) (s := "a%C3b".toList) (by decide)
    ⟨by decide +kernel, .inl (by decide +kernel)⟩
  have e : ([97, 0xC3, 98] : List UInt8) =
      String.utf8EncodeChar 'a' ++ (UInt8.ofNat (16 * 12 + 3) :: (String.utf8EncodeChar 'b' ++ [])) := by decide +kernel
  rw [e]
  exact .plain (s := "%C3b".toList) (by decide) (.escape (h := 'C') (l := '3') (s := ['b']) (.inr rfl) (.inl rfl)
    (.plain (by decide) .nil))

/-- Posting the byte 255 makes the handler panic. -/
theorem C58_panic : route ⟨.post, "query".toList, false, some 1, [255]⟩ = .panicked :=
  (C58_post rfl ⟨by decide +kernel, .inl (by decide +kernel)⟩).2.1 1 rfl (by decide)
    (fun ⟨t, ht⟩ => by
      have := (fromUtf8_iff [255] t).2 ht
      rw [show fromUtf8 [255] = none by decide +kernel] at this
      cases this)

/-- A slash that is not escaped cuts the query off: only `a` is run. -/
theorem C58_slash : route ⟨.get, "query/a//comment".toList, false, none, []⟩ = .query "a".toList true :=
  C58_get rfl (by
    have e : utf8 "a".toList = String.utf8EncodeChar 'a' ++ [] := by decide +kernel
    rw [e]; exact .plain (s := []) (by decide) .nil) (s := ['a']) (by decide)
    ⟨by decide +kernel, .inr ⟨"/comment".toList, by decide +kernel⟩⟩

end Noodle
