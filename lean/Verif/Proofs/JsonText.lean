import Verif.Model.Wire
import Verif.Proofs.Json
/-
A JSON text has at most one value.
-/
namespace Noodle
open Spec
set_option autoImplicit false

theorem hexVal_det {c : Char} {n m : Nat} (h : HexVal c n) (h' : HexVal c m) : n = m := by
  have key : ∀ p ∈ "0123456789abcdef".toList.zipIdx ++ "0123456789ABCDEF".toList.zipIdx,
      ∀ q ∈ "0123456789abcdef".toList.zipIdx ++ "0123456789ABCDEF".toList.zipIdx, p.1 = q.1 → p.2 = q.2 := by decide +kernel
  exact key _ (List.mem_append.2 h) _ (List.mem_append.2 h') rfl

theorem hex4_det {l l' r r' : List Char} {n m : Nat} (h : Hex4 l n) (h' : Hex4 l' m) (e : l ++ r = l' ++ r') :
    l = l' ∧ n = m ∧ r = r' := by
  obtain ⟨a, b, c, d, x, y, z, w, rfl, h1, h2, h3, h4, h5⟩ := h
  obtain ⟨a', b', c', d', x', y', z', w', rfl, k1, k2, k3, k4, k5⟩ := h'
  simp only [List.cons_append, List.nil_append, List.cons.injEq] at e
  obtain ⟨rfl, rfl, rfl, rfl, rfl⟩ := e
  rw [hexVal_det h1 k1, hexVal_det h2 k2, hexVal_det h3 k3, hexVal_det h4 k4] at h5
  exact ⟨rfl, h5.trans k5.symm, rfl⟩

theorem escape_ne_u {x c : Char} (h : (x, c) ∈ [('"', '"'), ('\\', '\\'), ('/', '/'), ('b', Char.ofNat 8), ('t', '\t'),
    ('n', '\n'), ('f', Char.ofNat 12), ('r', '\r')]) : x ≠ 'u' := by
  have key : ∀ p ∈ [('"', '"'), ('\\', '\\'), ('/', '/'), ('b', Char.ofNat 8), ('t', '\t'),
    ('n', '\n'), ('f', Char.ofNat 12), ('r', '\r')], p.1 ≠ 'u' := by decide
  exact key _ h

theorem escape_det {x c d : Char} (h : (x, c) ∈ [('"', '"'), ('\\', '\\'), ('/', '/'), ('b', Char.ofNat 8), ('t', '\t'),
    ('n', '\n'), ('f', Char.ofNat 12), ('r', '\r')]) (h' : (x, d) ∈ [('"', '"'), ('\\', '\\'), ('/', '/'),
    ('b', Char.ofNat 8), ('t', '\t'), ('n', '\n'), ('f', Char.ofNat 12), ('r', '\r')]) : c = d := by
  have key : ∀ p ∈ [('"', '"'), ('\\', '\\'), ('/', '/'), ('b', Char.ofNat 8), ('t', '\t'),
    ('n', '\n'), ('f', Char.ofNat 12), ('r', '\r')], ∀ q ∈ [('"', '"'), ('\\', '\\'), ('/', '/'), ('b', Char.ofNat 8), ('t', '\t'),
    ('n', '\n'), ('f', Char.ofNat 12), ('r', '\r')], p.1 = q.1 → p.2 = q.2 := by decide
  exact key _ h _ h' rfl

theorem char_scalar (c : Char) (h1 : 0xD800 ≤ c.toNat) (h2 : c.toNat < 0xE000) : False := by
  have h : c.toNat < 0xD800 ∨ (0xDFFF < c.toNat ∧ c.toNat < 0x110000) := c.valid
  omega

/-- The two ways to write a character as an escape with `u`. -/
theorem u_cases {i s r : List Char} {j : List Char} (h : JsonStr j s r) (e : j = '\\' :: 'u' :: i) :
    (∃ g k c t, i = g ++ k ∧ Hex4 g c.toNat ∧ s = c :: t ∧ JsonStr k t r) ∨
    ∃ g l k c t m n, i = g ++ '\\' :: 'u' :: l ++ k ∧ Hex4 g m ∧ Hex4 l n ∧ 0xD800 ≤ m ∧ m < 0xDC00 ∧
      Char.toNat c = 0x10000 + 0x400 * (m - 0xD800) + (n - 0xDC00) ∧ s = c :: t ∧ JsonStr k t r := by
  cases h with
  | close => cases e
  | raw _ _ h3 => injection e with e _; exact absurd e h3
  | escape h1 => injection e with _ e; injection e with e _; exact absurd e (escape_ne_u h1)
  | @unicode _ k _ _ g c h1 h2 h3 =>
    rw [h1] at e
    simp only [List.cons_append, List.cons.injEq, true_and] at e
    exact .inl ⟨g, k, c, _, e.symm, h2, rfl, h3⟩
  | @pair _ k _ _ g l c m n h1 h2 h3 h4 h5 _ _ h8 h9 =>
    rw [h1] at e
    simp only [List.cons_append, List.cons.injEq, true_and] at e
    exact .inr ⟨g, l, k, c, _, m, n, e.symm.trans (by simp), h2, h3, h4, h5, h8, rfl, h9⟩

theorem jsonStr_det {i s r : List Char} (h : JsonStr i s r) : ∀ {s' r' : List Char}, JsonStr i s' r' → s = s' ∧ r = r' := by
  induction h with
  | close r =>
    intro s' r' h'
    generalize hj : '"' :: r = j at h'
    cases h' with
    | close => exact ⟨rfl, (List.cons.inj hj).2⟩
    | raw _ h2 => exact absurd (List.cons.inj hj).1.symm h2
    | escape => cases hj
    | unicode e => rw [e] at hj; cases hj
    | pair e => rw [e] at hj; cases hj
  | @raw c i s r h1 h2 h3 _ ih =>
    intro s' r' h'
    generalize hj : c :: i = j at h'
    cases h' with
    | close => exact absurd (List.cons.inj hj).1 h2
    | raw _ _ _ k4 =>
      obtain ⟨rfl, rfl⟩ := List.cons.inj hj
      obtain ⟨rfl, rfl⟩ := ih k4
      exact ⟨rfl, rfl⟩
    | escape => exact absurd (List.cons.inj hj).1 h3
    | unicode e => rw [e] at hj; exact absurd (List.cons.inj hj).1 h3
    | pair e => rw [e] at hj; exact absurd (List.cons.inj hj).1 h3
  | @escape x c i s r h1 _ ih =>
    intro s' r' h'
    generalize hj : '\\' :: x :: i = j at h'
    cases h' with
    | close => cases hj
    | raw _ _ k3 => exact absurd (List.cons.inj hj).1.symm k3
    | escape k1 k2 =>
      obtain ⟨_, hj⟩ := List.cons.inj hj
      obtain ⟨rfl, rfl⟩ := List.cons.inj hj
      obtain ⟨rfl, rfl⟩ := ih k2
      exact ⟨by rw [escape_det h1 k1], rfl⟩
    | unicode e =>
      rw [e] at hj
      exact absurd (List.cons.inj (List.cons.inj hj).2).1 (escape_ne_u h1)
    | pair e =>
      rw [e] at hj
      exact absurd (List.cons.inj (List.cons.inj hj).2).1 (escape_ne_u h1)
  | @unicode j i s r g c e h1 _ ih =>
    intro s' r' h'
    rcases u_cases h' e with ⟨g', k, c', t, e1, e2, rfl, e4⟩ | ⟨g', l, k, c', t, m, n, e1, e2, _, e3, e4, _, rfl, _⟩
    · obtain ⟨rfl, hc, rfl⟩ := hex4_det h1 e2 e1
      obtain ⟨rfl, rfl⟩ := ih e4
      exact ⟨by rw [char_eq hc], rfl⟩
    · rw [List.append_assoc] at e1
      obtain ⟨_, hc, _⟩ := hex4_det h1 e2 e1
      exact (char_scalar c (by omega) (by omega)).elim
  | @pair j i s r g l c m n e h1 h2 h3 h4 _ _ h7 _ ih =>
    intro s' r' h'
    have e : j = '\\' :: 'u' :: (g ++ '\\' :: 'u' :: (l ++ i)) := e.trans (by simp)
    rcases u_cases h' e with ⟨g', k, c', t, e1, e2, rfl, e4⟩ | ⟨g', l', k, c', t, m', n', e1, e2, e3, _, _, e4, rfl, e6⟩
    · obtain ⟨_, hc, _⟩ := hex4_det h1 e2 e1
      exact (char_scalar c' (by omega) (by omega)).elim
    · simp only [List.append_assoc, List.cons_append] at e1
      obtain ⟨rfl, rfl, e1⟩ := hex4_det h1 e2 e1
      simp only [List.cons.injEq, true_and] at e1
      obtain ⟨rfl, rfl, rfl⟩ := hex4_det h2 e3 e1
      obtain ⟨rfl, rfl⟩ := ih e6
      exact ⟨by rw [char_eq (h7.trans e4.symm)], rfl⟩

theorem numeral_chars {t : List Char} (h : Numeral t) : t ≠ [] ∧ ∀ c ∈ t, numChar c = true := by
  have hd : ∀ {l : List Char}, Digits l → ∀ c ∈ l, numChar c = true := by
    intro l hl c hc
    unfold numChar
    rw [hl.2 c hc]
    rfl
  cases h with
  | @mk sign int frac exp h1 h2 _ h4 h5 =>
    refine ⟨by simp [h2.1], fun c hc => ?_⟩
    simp only [List.mem_append] at hc
    rcases hc with ((hc | hc) | hc) | hc
    · rcases List.mem_cons.1 h1 with rfl | h1
      · cases hc
      · rw [List.mem_singleton.1 h1, List.mem_singleton] at hc
        subst hc; decide
    · exact hd h2 c hc
    · rcases h4 with rfl | ⟨d, h4, rfl⟩
      · cases hc
      · rcases List.mem_cons.1 hc with rfl | hc
        · decide
        · exact hd h4 c hc
    · rcases h5 with rfl | ⟨e, s, d, h5, h6, h7, rfl⟩
      · cases hc
      · simp only [List.cons_append, List.mem_cons, List.mem_append] at hc
        rcases hc with rfl | hc | hc
        · revert h5; revert c; decide
        · have : ∀ s ∈ ([[], ['+'], ['-']] : List (List Char)), ∀ c ∈ s, numChar c = true := by decide
          exact this s h6 c hc
        · exact hd h7 c hc

theorem numeral_det {t t' r r' : List Char} (h : Numeral t) (h' : Numeral t') (hr : ∀ c, r.head? = some c → numChar c = false)
    (hr' : ∀ c, r'.head? = some c → numChar c = false) (e : t ++ r = t' ++ r') : t = t' ∧ r = r' := by
  have key : ∀ {t r : List Char}, Numeral t → (∀ c, r.head? = some c → numChar c = false) → (t ++ r).takeWhile numChar = t := by
    intro t r h hr
    rw [List.takeWhile_append_of_pos (numeral_chars h).2]
    cases r with
    | nil => simp
    | cons c r => simp [List.takeWhile_cons, hr c rfl]
  have h1 := key h hr
  rw [e, key h' hr'] at h1
  subst h1
  exact ⟨rfl, List.append_cancel_left e⟩

theorem numeral_head {t r i : List Char} {c : Char} (h : Numeral t) (e : c :: i = t ++ r) : numChar c = true := by
  have := numeral_chars h
  cases t with
  | nil => exact absurd rfl this.1
  | cons x t =>
    obtain ⟨rfl, _⟩ := List.cons.inj e
    exact this.2 c (by simp)

/-- A value begins with no closing bracket. -/
theorem value_head {i m : List Char} {v : Json} (h : JsonValue i v m) {c : Char} {t : List Char} (e : i = c :: t) :
    c ∉ [']', '}', ',', ':'] := by
  cases h with
  | num h1 h2 _ =>
    have := numeral_head h2 (e.symm.trans h1)
    intro hc
    have key : ∀ c ∈ [']', '}', ',', ':'], numChar c = false := by decide
    rw [key c hc] at this
    cases this
  | _ => obtain ⟨rfl, _⟩ := List.cons.inj e; decide

theorem items_close {i m r : List Char} {l : List Json} (h : JsonItems i l m) (e : skip i = ']' :: r) : False := by
  cases h with
  | last h1 _ => exact value_head h1 e (by simp)
  | more h1 _ _ => exact value_head h1 e (by simp)

theorem members_close {i m r : List Char} {l : List (List Char × Json)} (h : JsonMembers i l m) (e : skip i = '}' :: r) :
    False := by
  cases h with
  | last h1 => rw [e] at h1; cases h1
  | more h1 => rw [e] at h1; cases h1

mutual
theorem value_det {i r : List Char} {v : Json} (h : JsonValue i v r) : ∀ {v' : Json} {r' : List Char}, JsonValue i v' r' →
    v = v' ∧ r = r' := by
  intro v' r' h'
  match h with
  | .null _ => cases h' with
    | null => exact ⟨rfl, rfl⟩
    | num h1 h2 => exact absurd (numeral_head h2 h1) (by decide)
  | .yes _ => cases h' with
    | yes => exact ⟨rfl, rfl⟩
    | num h1 h2 => exact absurd (numeral_head h2 h1) (by decide)
  | .no _ => cases h' with
    | no => exact ⟨rfl, rfl⟩
    | num h1 h2 => exact absurd (numeral_head h2 h1) (by decide)
  | .num h1 h2 h3 => cases h' with
    | num k1 k2 k3 =>
      obtain ⟨rfl, rfl⟩ := numeral_det h2 k2 h3 k3 (h1.symm.trans k1)
      exact ⟨rfl, rfl⟩
    | _ => exact absurd (numeral_head h2 h1) (by decide)
  | .str h1 => cases h' with
    | str k1 =>
      obtain ⟨rfl, rfl⟩ := jsonStr_det h1 k1
      exact ⟨rfl, rfl⟩
    | num h1 h2 => exact absurd (numeral_head h2 h1) (by decide)
  | .noItems h1 => cases h' with
    | noItems k1 =>
      rw [h1] at k1
      exact ⟨rfl, (List.cons.inj k1).2⟩
    | items k1 => exact (items_close k1 h1).elim
    | num h1 h2 => exact absurd (numeral_head h2 h1) (by decide)
  | .items h1 => cases h' with
    | noItems k1 => exact (items_close h1 k1).elim
    | items k1 =>
      obtain ⟨rfl, rfl⟩ := items_det h1 k1
      exact ⟨rfl, rfl⟩
    | num h1 h2 => exact absurd (numeral_head h2 h1) (by decide)
  | .noMembers h1 => cases h' with
    | noMembers k1 =>
      rw [h1] at k1
      exact ⟨rfl, (List.cons.inj k1).2⟩
    | members k1 => exact (members_close k1 h1).elim
    | num h1 h2 => exact absurd (numeral_head h2 h1) (by decide)
  | .members h1 => cases h' with
    | noMembers k1 => exact (members_close h1 k1).elim
    | members k1 =>
      obtain ⟨rfl, rfl⟩ := members_det h1 k1
      exact ⟨rfl, rfl⟩
    | num h1 h2 => exact absurd (numeral_head h2 h1) (by decide)
theorem items_det {i r : List Char} {l : List Json} (h : JsonItems i l r) : ∀ {l' : List Json} {r' : List Char},
    JsonItems i l' r' → l = l' ∧ r = r' := by
  intro l' r' h'
  match h with
  | .last h1 h2 => cases h' with
    | last k1 k2 =>
      obtain ⟨rfl, rfl⟩ := value_det h1 k1
      rw [h2] at k2
      exact ⟨rfl, (List.cons.inj k2).2⟩
    | more k1 k2 _ =>
      obtain ⟨rfl, rfl⟩ := value_det h1 k1
      rw [h2] at k2
      cases k2
  | .more h1 h2 h3 => cases h' with
    | last k1 k2 =>
      obtain ⟨rfl, rfl⟩ := value_det h1 k1
      rw [h2] at k2
      cases k2
    | more k1 k2 k3 =>
      obtain ⟨rfl, rfl⟩ := value_det h1 k1
      rw [h2] at k2
      obtain ⟨_, rfl⟩ := List.cons.inj k2
      obtain ⟨rfl, rfl⟩ := items_det h3 k3
      exact ⟨rfl, rfl⟩
theorem members_det {i r : List Char} {l : List (List Char × Json)} (h : JsonMembers i l r) :
    ∀ {l' : List (List Char × Json)} {r' : List Char}, JsonMembers i l' r' → l = l' ∧ r = r' := by
  intro l' r' h'
  match h with
  | .last h1 h2 h3 h4 h5 => cases h' with
    | last k1 k2 k3 k4 k5 =>
      rw [h1] at k1
      obtain ⟨_, rfl⟩ := List.cons.inj k1
      obtain ⟨rfl, rfl⟩ := jsonStr_det h2 k2
      rw [h3] at k3
      obtain ⟨_, rfl⟩ := List.cons.inj k3
      obtain ⟨rfl, rfl⟩ := value_det h4 k4
      rw [h5] at k5
      exact ⟨rfl, (List.cons.inj k5).2⟩
    | more k1 k2 k3 k4 k5 =>
      rw [h1] at k1
      obtain ⟨_, rfl⟩ := List.cons.inj k1
      obtain ⟨rfl, rfl⟩ := jsonStr_det h2 k2
      rw [h3] at k3
      obtain ⟨_, rfl⟩ := List.cons.inj k3
      obtain ⟨rfl, rfl⟩ := value_det h4 k4
      rw [h5] at k5
      cases k5
  | .more h1 h2 h3 h4 h5 h6 => cases h' with
    | last k1 k2 k3 k4 k5 =>
      rw [h1] at k1
      obtain ⟨_, rfl⟩ := List.cons.inj k1
      obtain ⟨rfl, rfl⟩ := jsonStr_det h2 k2
      rw [h3] at k3
      obtain ⟨_, rfl⟩ := List.cons.inj k3
      obtain ⟨rfl, rfl⟩ := value_det h4 k4
      rw [h5] at k5
      cases k5
    | more k1 k2 k3 k4 k5 k6 =>
      rw [h1] at k1
      obtain ⟨_, rfl⟩ := List.cons.inj k1
      obtain ⟨rfl, rfl⟩ := jsonStr_det h2 k2
      rw [h3] at k3
      obtain ⟨_, rfl⟩ := List.cons.inj k3
      obtain ⟨rfl, rfl⟩ := value_det h4 k4
      rw [h5] at k5
      obtain ⟨_, rfl⟩ := List.cons.inj k5
      obtain ⟨rfl, rfl⟩ := members_det h6 k6
      exact ⟨rfl, rfl⟩
end

theorem jsonText_det {s : List Char} {v v' : Json} (h : JsonText s v) (h' : JsonText s v') : v = v' := by
  obtain ⟨_, h, _⟩ := h
  obtain ⟨_, h', _⟩ := h'
  exact (value_det h h').1

end Noodle
