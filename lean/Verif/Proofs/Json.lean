import Verif.Spec.Web
import Verif.Proofs.Syntax
import Verif.Props.C03
/-
The JSON texts of matches: correct, on one line, unambiguous.
-/
namespace Noodle
open Spec
set_option autoImplicit false

theorem char_eq {a b : Char} (h : a.toNat = b.toNat) : a = b :=
  Char.ext (UInt32.toNat_inj.1 h)

theorem hex_mem (n : Nat) (h : n < 16) : (hexDigit n, n) ∈ "0123456789abcdef".toList.zipIdx := by
  have : ∀ n : Fin 16, (hexDigit n.1, n.1) ∈ "0123456789abcdef".toList.zipIdx := by decide
  exact this ⟨n, h⟩

theorem jsonChar_spec (c : Char) {e d : List Char} (h : JsonChars e d) : JsonChars (jsonChar c ++ e) (c :: d) := by
  unfold jsonChar
  split
  · rename_i hc; subst hc; exact .escape (by simp) h
  split
  · rename_i hc; subst hc; exact .escape (by simp) h
  split
  · rename_i hc; obtain rfl : c = Char.ofNat 8 := char_eq (by rw [hc]; rfl)
    exact .escape (by decide) h
  split
  · rename_i hc; obtain rfl : c = '\t' := char_eq (by rw [hc]; rfl)
    exact .escape (by decide) h
  split
  · rename_i hc; obtain rfl : c = '\n' := char_eq (by rw [hc]; rfl)
    exact .escape (by decide) h
  split
  · rename_i hc; obtain rfl : c = Char.ofNat 12 := char_eq (by rw [hc]; rfl)
    exact .escape (by decide) h
  split
  · rename_i hc; obtain rfl : c = '\r' := char_eq (by rw [hc]; rfl)
    exact .escape (by decide) h
  split
  · rename_i hc
    exact .unicode (hex_mem _ (by omega)) (hex_mem _ (by omega)) (by omega) h
  · rename_i h1 h2 _ _ _ _ _ h8
    exact .raw (by omega) h1 h2 h

theorem jsonChars_spec : ∀ s : List Char, JsonChars (s.flatMap jsonChar) s
  | [] => .nil
  | c :: s => by
    rw [List.flatMap_cons]
    exact jsonChar_spec c (jsonChars_spec s)

theorem hex_inj {h l : Char} {x y : Nat} (hx : (h, x) ∈ "0123456789abcdef".toList.zipIdx)
    (hy : (l, y) ∈ "0123456789abcdef".toList.zipIdx) (hh : h = l) : x = y := by
  have : ∀ p ∈ "0123456789abcdef".toList.zipIdx, ∀ q ∈ "0123456789abcdef".toList.zipIdx, p.1 = q.1 → p.2 = q.2 := by
    decide
  exact this _ hx _ hy hh

/-- The escapes of one character. -/
def escapes : List (Char × Char) := [('"', '"'), ('\\', '\\'), ('/', '/'), ('b', Char.ofNat 8), ('t', '\t'), ('n', '\n'),
        ('f', Char.ofNat 12), ('r', '\r')]

theorem escape_inj {x y c d : Char} (hx : (x, c) ∈ escapes) (hy : (y, d) ∈ escapes) (h : x = y) : c = d := by
  have : ∀ p ∈ escapes, ∀ q ∈ escapes, p.1 = q.1 → p.2 = q.2 := by decide
  exact this _ hx _ hy h

theorem escape_not_u {x c : Char} (hx : (x, c) ∈ escapes) : x ≠ 'u' := by
  have : ∀ p ∈ escapes, p.1 ≠ 'u' := by decide
  exact this _ hx

theorem jsonChars_unique {e d : List Char} (h : JsonChars e d) : ∀ {e' d' r r' : List Char}, JsonChars e' d' →
    e ++ '"' :: r = e' ++ '"' :: r' → e = e' ∧ d = d' ∧ r = r' := by
  induction h with
  | nil =>
    intro e' d' r r' h' he
    cases h' with
    | nil => simp at he; exact ⟨rfl, rfl, he⟩
    | raw _ h2 => simp at he; exact absurd he.1.symm h2
    | escape => simp at he
    | unicode => simp at he
  | raw h1 h2 h3 _ ih =>
    intro e' d' r r' h' he
    cases h' with
    | nil => simp at he; exact absurd he.1 h2
    | raw _ _ _ h4 =>
      simp only [List.cons_append, List.cons.injEq] at he
      obtain ⟨rfl, he⟩ := he
      obtain ⟨rfl, rfl, rfl⟩ := ih h4 he
      exact ⟨rfl, rfl, rfl⟩
    | escape => simp at he; exact absurd he.1 h3
    | unicode => simp at he; exact absurd he.1 h3
  | escape h1 _ ih =>
    intro e' d' r r' h' he
    cases h' with
    | nil => simp at he
    | raw _ _ h3 => simp at he; exact absurd he.1.symm h3
    | escape h3 h4 =>
      simp only [List.cons_append, List.cons.injEq, true_and] at he
      obtain ⟨rfl, he⟩ := he
      obtain ⟨rfl, rfl, rfl⟩ := ih h4 he
      exact ⟨rfl, by rw [escape_inj h1 h3 rfl], rfl⟩
    | unicode => simp at he; exact absurd he.1 (escape_not_u h1)
  | unicode h1 h2 h3 _ ih =>
    intro e' d' r r' h' he
    cases h' with
    | nil => simp at he
    | raw _ _ h4 => simp at he; exact absurd he.1.symm h4
    | escape h4 => simp at he; exact absurd he.1.symm (escape_not_u h4)
    | unicode k1 k2 k3 k4 =>
      simp only [List.cons_append, List.cons.injEq, true_and] at he
      obtain ⟨hh, hl, he⟩ := he
      have h5 := hex_inj h1 k1 hh
      have h6 := hex_inj h2 k2 hl
      subst h5 h6 hh hl
      obtain ⟨rfl, rfl, rfl⟩ := ih k4 he
      exact ⟨rfl, by rw [char_eq (h3.trans k3.symm)], rfl⟩

theorem split_at {α : Type} {x : α} : ∀ {a b r r' : List α}, x ∉ a → x ∉ b → a ++ x :: r = b ++ x :: r' → a = b ∧ r = r'
  | [], [], _, _, _, _, h => ⟨rfl, by simpa using h⟩
  | [], b :: bs, _, _, _, hb, h => by simp at h; simp [h.1] at hb
  | a :: as, [], _, _, ha, _, h => by simp at h; simp [h.1] at ha
  | a :: as, b :: bs, _, _, ha, hb, h => by
    simp only [List.cons_append, List.cons.injEq] at h
    obtain ⟨rfl, h⟩ := h
    obtain ⟨rfl, rfl⟩ := split_at (fun hm => ha (by simp [hm])) (fun hm => hb (by simp [hm])) h
    exact ⟨rfl, rfl⟩

theorem decimal_notin {ds : List Char} {n : Nat} (h : Decimal ds n) {c : Char} (hc : c.isDigit = false) : c ∉ ds := by
  intro hm
  have := List.all_eq_true.1 (decimal_iff.1 h).2.1 c hm
  rw [hc] at this
  cases this

theorem jsonWord_unique {s s' : List Char} {w w' : List Char × Nat} (h : JsonWord s w) (h' : JsonWord s' w')
    {r r' : List Char} (he : s ++ r = s' ++ r') : w = w' ∧ r = r' := by
  cases h with
  | mk h1 h2 =>
    cases h' with
    | mk k1 k2 =>
      simp only [List.append_assoc] at he
      have he := List.append_cancel_left he
      obtain ⟨_, rfl, he⟩ := jsonChars_unique h1 k1 (r := _) (r' := _) (by simpa using he)
      obtain ⟨h5, h6⟩ := split_at (x := '}') (decimal_notin h2 (by decide)) (decimal_notin k2 (by decide)) (by simpa using he)
      subst h5
      have h3 := (decimal_iff.1 h2).2.2
      have h4 := (decimal_iff.1 k2).2.2
      exact ⟨by rw [← h3, ← h4], h6⟩

theorem jsonWords_unique {s : List Char} {ws : List (List Char × Nat)} (h : JsonWords s ws) :
    ∀ {s' r r' : List Char} {ws' : List (List Char × Nat)}, JsonWords s' ws' → s ++ ']' :: r = s' ++ ']' :: r' →
      ws = ws' ∧ r = r' := by
  induction h with
  | one h1 =>
    intro s' r r' ws' h' he
    cases h' with
    | one k1 =>
      obtain ⟨rfl, he⟩ := jsonWord_unique h1 k1 he
      exact ⟨rfl, by simpa using he⟩
    | cons k1 k2 =>
      rw [List.append_assoc] at he
      obtain ⟨rfl, he⟩ := jsonWord_unique h1 k1 he
      simp at he
  | cons h1 _ ih =>
    intro s' r r' ws' h' he
    cases h' with
    | one k1 =>
      rw [List.append_assoc] at he
      obtain ⟨rfl, he⟩ := jsonWord_unique h1 k1 he
      simp at he
    | cons k1 k2 =>
      rw [List.append_assoc, List.append_assoc] at he
      obtain ⟨rfl, he⟩ := jsonWord_unique h1 k1 he
      obtain ⟨rfl, rfl⟩ := ih k2 (by simpa using he)
      exact ⟨rfl, rfl⟩

theorem jsonWords_start {s : List Char} {ws : List (List Char × Nat)} (h : JsonWords s ws) : ∃ t, s = '{' :: t := by
  cases h with
  | one h1 => cases h1; exact ⟨_, rfl⟩
  | cons h1 _ => cases h1; exact ⟨_, rfl⟩

theorem jsonMatch_unique {s : List Char} {a b : List (List Char × Nat)} (h : JsonMatch s a) (h' : JsonMatch s b) : a = b := by
  obtain ⟨t, rfl, h⟩ := h
  obtain ⟨t', he, h'⟩ := h'
  simp only [List.append_assoc] at he
  have he := List.append_cancel_left he
  have he : t ++ ']' :: ['}', '}'] = t' ++ ']' :: ['}', '}'] := he
  rcases h with h | ⟨rfl, rfl⟩ <;> rcases h' with h' | ⟨rfl, rfl⟩
  · exact (jsonWords_unique h h' he).1
  · obtain ⟨u, rfl⟩ := jsonWords_start h; simp at he
  · obtain ⟨u, rfl⟩ := jsonWords_start h'; simp at he
  · rfl

theorem jsonWord_spec (w : Word) : JsonWord (jsonWord w) (entry w) := by
  have h1 := JsonWord.mk (jsonChars_spec w.text.toList)
    (decimal_iff.2 ⟨digits_ne w.score, List.all_eq_true.2 (digits_digit w.score), decimal_digits w.score⟩)
  have : jsonWord w = "{\"text\":\"".toList ++ w.text.toList.flatMap jsonChar ++ "\",\"score\":".toList ++
      digits w.score ++ "}".toList := by
    have e1 : "{\"text\":\"".toList = "{\"text\":".toList ++ ['"'] := by decide
    have e2 : "\",\"score\":".toList = ['"'] ++ ",\"score\":".toList := by decide
    have e3 : "}".toList = ['}'] := by decide
    rw [e1, e2, e3]
    unfold jsonWord jsonString digits
    simp only [List.append_assoc]
  rw [this]
  exact h1

theorem commas_spec : ∀ ws : List Word, ws ≠ [] → JsonWords (commas (ws.map jsonWord)) (ws.map entry)
  | [], h => absurd rfl h
  | [w], _ => .one (jsonWord_spec w)
  | w :: v :: ws, _ => by
    have := commas_spec (v :: ws) (by simp)
    have h2 := JsonWords.cons (jsonWord_spec w) this
    have h3 : commas ((w :: v :: ws).map jsonWord) = jsonWord w ++ ',' :: commas ((v :: ws).map jsonWord) := by
      simp [commas]
    rw [h3]
    exact h2

theorem jsonMatch_spec (ws : List Word) : JsonMatch (flattenPhrase ws) (ws.map entry) := by
  unfold JsonMatch flattenPhrase
  refine ⟨commas (ws.map jsonWord), rfl, ?_⟩
  cases ws with
  | nil => exact .inr ⟨rfl, rfl⟩
  | cons w ws => exact .inl (commas_spec _ (by simp))

/-! ### One line -/

theorem jsonChars_line {e d : List Char} (h : JsonChars e d) : '\n' ∉ e := by
  induction h with
  | nil => simp
  | raw h1 _ _ _ ih =>
    intro hm
    rcases List.mem_cons.1 hm with rfl | hm
    · exact absurd h1 (by decide)
    · exact ih hm
  | escape h1 _ ih =>
    have : ∀ p ∈ escapes, p.1 ≠ '\n' := by decide
    have := this _ h1
    intro hm
    simp only [List.mem_cons] at hm
    rcases hm with hm | hm | hm
    · exact absurd hm (by decide)
    · exact this hm.symm
    · exact ih hm
  | unicode h1 h2 _ _ ih =>
    have : ∀ p ∈ "0123456789abcdef".toList.zipIdx, p.1 ≠ '\n' := by decide
    have k1 := this _ h1
    have k2 := this _ h2
    intro hm
    simp only [List.mem_cons] at hm
    rcases hm with hm | hm | hm | hm | hm | hm | hm
    · exact absurd hm (by decide)
    · exact absurd hm (by decide)
    · exact absurd hm (by decide)
    · exact absurd hm (by decide)
    · exact k1 hm.symm
    · exact k2 hm.symm
    · exact ih hm

theorem jsonWord_line {s : List Char} {w : List Char × Nat} (h : JsonWord s w) : '\n' ∉ s := by
  cases h with
  | mk h1 h2 =>
    simp only [List.mem_append, not_or]
    exact ⟨⟨⟨⟨by decide, jsonChars_line h1⟩, by decide⟩, decimal_notin h2 (by decide)⟩, by decide⟩

theorem jsonWords_line {s : List Char} {ws : List (List Char × Nat)} (h : JsonWords s ws) : '\n' ∉ s := by
  induction h with
  | one h1 => exact jsonWord_line h1
  | cons h1 _ ih =>
    simp only [List.mem_append, List.mem_cons, not_or]
    exact ⟨jsonWord_line h1, by decide, ih⟩

theorem jsonMatch_line {s : List Char} {ws : List (List Char × Nat)} (h : JsonMatch s ws) : '\n' ∉ s := by
  obtain ⟨t, rfl, h⟩ := h
  simp only [List.mem_append, not_or]
  refine ⟨⟨by decide, ?_⟩, by decide⟩
  rcases h with h | ⟨rfl, _⟩
  · exact jsonWords_line h
  · simp

/-- Lines of matches, and then something that is not one: the matches can be read off. -/
theorem jsonLines_unique : ∀ {a b : List (List Word)} {r r' : List Char}, (∀ t, r ≠ '{' :: t) → (∀ t, r' ≠ '{' :: t) →
    a.flatMap (fun ws => flattenPhrase ws ++ ['\n']) ++ r = b.flatMap (fun ws => flattenPhrase ws ++ ['\n']) ++ r' →
    a.map (fun ws => ws.map entry) = b.map (fun ws => ws.map entry) ∧ r = r'
  | [], [], r, r', _, _, h => ⟨rfl, by simpa using h⟩
  | [], b :: bs, r, r', hr, _, h => absurd h (by
      rw [List.flatMap_cons]
      exact hr _)
  | a :: as, [], r, r', _, hr', h => absurd h.symm (by
      rw [List.flatMap_cons]
      exact hr' _)
  | a :: as, b :: bs, r, r', hr, hr', h => by
    simp only [List.flatMap_cons, List.append_assoc, List.cons_append, List.nil_append] at h
    obtain ⟨h1, h2⟩ := split_at (jsonMatch_line (jsonMatch_spec a)) (jsonMatch_line (jsonMatch_spec b)) h
    obtain ⟨h3, h4⟩ := jsonLines_unique hr hr' h2
    have h5 : a.map entry = b.map entry := jsonMatch_unique (jsonMatch_spec a) (h1 ▸ jsonMatch_spec b)
    exact ⟨by rw [List.map_cons, List.map_cons, h3, h5], h4⟩

end Noodle
