import Verif.Model.Routes
import Verif.Spec.Http
/-
UTF-8: what `from_utf8` and `decode_utf8_lossy` read is what Lean's own encoder writes.
-/
namespace Noodle
set_option autoImplicit false

theorem char_cases (c : Char) : c.toNat < 0xD800 ∨ 0xDFFF < c.toNat ∧ c.toNat < 0x110000 := c.valid

theorem char_of_toNat (c : Char) : Char.ofNat c.toNat = c := Char.ofNat_toNat c

theorem byteAt_cons (b : UInt8) (l : List UInt8) : byteAt (b :: l) 0 = b.toNat := rfl
theorem byteAt_succ (b : UInt8) (l : List UInt8) (i : Nat) : byteAt (b :: l) (i + 1) = byteAt l i := rfl

theorem ofNat_toNat8 {n : Nat} (h : n < 256) : (UInt8.ofNat n).toNat = n := by
  rw [UInt8.toNat_ofNat']; omega

theorem byteAt_zero {n : Nat} {l : List UInt8} (h : n < 256) : byteAt (UInt8.ofNat n :: l) 0 = n := ofNat_toNat8 h
theorem byteAt_one {b : UInt8} {n : Nat} {l : List UInt8} (h : n < 256) : byteAt (b :: UInt8.ofNat n :: l) 1 = n :=
  ofNat_toNat8 h
theorem byteAt_two {a b : UInt8} {n : Nat} {l : List UInt8} (h : n < 256) :
    byteAt (a :: b :: UInt8.ofNat n :: l) 2 = n :=
  ofNat_toNat8 h

theorem byte_eq {b : UInt8} {n : Nat} (h : b.toNat = n) : b = UInt8.ofNat n := by
  rw [← h, UInt8.ofNat_toNat]

theorem head1 {b : Nat} {l : List UInt8} (hb : b < 0x80) : utf8Head b l = (some (Char.ofNat b), 0) := by
  unfold utf8Head
  exact if_pos hb

theorem head2 {b c1 : Nat} {l : List UInt8} (hb : 0xC2 ≤ b ∧ b ≤ 0xDF) (e1 : byteAt l 0 = c1)
    (h1 : 0x80 ≤ c1 ∧ c1 ≤ 0xBF) : utf8Head b l = (some (Char.ofNat ((b - 0xC0) * 64 + (c1 - 0x80))), 1) := by
  subst e1
  unfold utf8Head
  simp only
  have k1 : isCont (byteAt l 0) = true := decide_eq_true h1
  rw [if_neg (by omega), if_pos hb, if_pos k1]

theorem not_true {p : Bool} (h : p = true) : ¬ (!p) = true := by simp [h]

theorem head3 {b c1 c2 : Nat} {l : List UInt8} (hb : 0xE0 ≤ b ∧ b ≤ 0xEF) (e1 : byteAt l 0 = c1)
    (h1 : b = 0xE0 ∧ 0xA0 ≤ c1 ∧ c1 ≤ 0xBF ∨ 0xE1 ≤ b ∧ b ≤ 0xEC ∧ 0x80 ≤ c1 ∧ c1 ≤ 0xBF ∨
      b = 0xED ∧ 0x80 ≤ c1 ∧ c1 ≤ 0x9F ∨ 0xEE ≤ b ∧ b ≤ 0xEF ∧ 0x80 ≤ c1 ∧ c1 ≤ 0xBF) (e2 : byteAt l 1 = c2)
    (h2 : 0x80 ≤ c2 ∧ c2 ≤ 0xBF) :
    utf8Head b l = (some (Char.ofNat ((b - 0xE0) * 4096 + (c1 - 0x80) * 64 + (c2 - 0x80))), 2) := by
  subst e1 e2
  unfold utf8Head
  simp only
  have k1 : second3 b (byteAt l 0) = true := decide_eq_true h1
  have k2 : isCont (byteAt l 1) = true := decide_eq_true h2
  rw [if_neg (by omega), if_neg (by omega), if_pos hb, if_neg (not_true k1), if_neg (not_true k2)]

theorem head4 {b c1 c2 c3 : Nat} {l : List UInt8} (hb : 0xF0 ≤ b ∧ b ≤ 0xF4) (e1 : byteAt l 0 = c1)
    (h1 : b = 0xF0 ∧ 0x90 ≤ c1 ∧ c1 ≤ 0xBF ∨ 0xF1 ≤ b ∧ b ≤ 0xF3 ∧ 0x80 ≤ c1 ∧ c1 ≤ 0xBF ∨
      b = 0xF4 ∧ 0x80 ≤ c1 ∧ c1 ≤ 0x8F) (e2 : byteAt l 1 = c2)
    (h2 : 0x80 ≤ c2 ∧ c2 ≤ 0xBF) (e3 : byteAt l 2 = c3) (h3 : 0x80 ≤ c3 ∧ c3 ≤ 0xBF) :
    utf8Head b l =
      (some (Char.ofNat ((b - 0xF0) * 262144 + (c1 - 0x80) * 4096 + (c2 - 0x80) * 64 + (c3 - 0x80))), 3) := by
  subst e1 e2 e3
  unfold utf8Head
  simp only
  have k1 : second4 b (byteAt l 0) = true := decide_eq_true h1
  have k2 : isCont (byteAt l 1) = true := decide_eq_true h2
  have k3 : isCont (byteAt l 2) = true := decide_eq_true h3
  rw [if_neg (by omega), if_neg (by omega), if_neg (by omega), if_pos hb, if_neg (not_true k1), if_neg (not_true k2),
    if_neg (not_true k3)]

/-- What the decoder reads at the start of an encoded character. -/
theorem head_of_encoded (c : Char) (l : List UInt8) : ∃ b m, String.utf8EncodeChar c = b :: m ∧
    utf8Head b.toNat (m ++ l) = (some c, m.length) := by
  have hc := char_cases c
  have hv : c.val.toNat = c.toNat := rfl
  have e := char_of_toNat c
  generalize c.toNat = n at *
  unfold String.utf8EncodeChar
  rw [hv]
  simp only
  by_cases h1 : n ≤ 0x7f
  · rw [if_pos h1]
    refine ⟨_, _, rfl, ?_⟩
    rw [ofNat_toNat8 (by omega), head1 (by omega), e]
    rfl
  rw [if_neg h1]
  by_cases h2 : n ≤ 0x7ff
  · rw [if_pos h2]
    refine ⟨_, _, rfl, ?_⟩
    rw [ofNat_toNat8 (by omega)]
    refine (head2 (c1 := n % 64 + 128) (by omega) (byteAt_zero (by omega)) (by omega)).trans ?_
    have : (n / 64 % 32 + 192 - 192) * 64 + (n % 64 + 128 - 128) = n := by omega
    rw [this, e]
    rfl
  rw [if_neg h2]
  by_cases h3 : n ≤ 0xffff
  · rw [if_pos h3]
    refine ⟨_, _, rfl, ?_⟩
    rw [ofNat_toNat8 (by omega)]
    refine (head3 (c1 := n / 64 % 64 + 128) (c2 := n % 64 + 128) (by omega) (byteAt_zero (by omega)) (by omega)
      (byteAt_one (by omega)) (by omega)).trans ?_
    have : (n / 4096 % 16 + 224 - 224) * 4096 + (n / 64 % 64 + 128 - 128) * 64 + (n % 64 + 128 - 128) = n := by omega
    rw [this, e]
    rfl
  · rw [if_neg h3]
    refine ⟨_, _, rfl, ?_⟩
    rw [ofNat_toNat8 (by omega)]
    refine (head4 (c1 := n / 4096 % 64 + 128) (c2 := n / 64 % 64 + 128) (c3 := n % 64 + 128) (by omega)
      (byteAt_zero (by omega)) (by omega) (byteAt_one (by omega)) (by omega) (byteAt_two (by omega))
      (by omega)).trans ?_
    have : (n / 262144 % 8 + 240 - 240) * 262144 + (n / 4096 % 64 + 128 - 128) * 4096 + (n / 64 % 64 + 128 - 128) * 64 +
      (n % 64 + 128 - 128) = n := by omega
    rw [this, e]
    rfl

theorem parts_skip (m l : List UInt8) : utf8Parts m.length (m ++ l) = utf8Parts 0 l := by
  induction m with
  | nil => rfl
  | cons b m ih => exact ih

theorem parts_encoded (c : Char) (l : List UInt8) :
    utf8Parts 0 (String.utf8EncodeChar c ++ l) = some c :: utf8Parts 0 l := by
  obtain ⟨b, m, h1, h2⟩ := head_of_encoded c l
  rw [h1, List.cons_append, utf8Parts, h2]
  show some c :: utf8Parts m.length (m ++ l) = _
  rw [parts_skip]

theorem parts_bytes : ∀ t : List Char, utf8Parts 0 (strBytes t) = t.map some
  | [] => rfl
  | c :: t => by
    rw [strBytes, List.flatMap_cons, parts_encoded, List.map_cons]
    exact congrArg _ (parts_bytes t)

theorem byteAt_pos {l : List UInt8} {i n : Nat} (h : byteAt l i = n) (hn : n ≠ 0) : ∃ b, l[i]? = some b ∧ b.toNat = n := by
  unfold byteAt at h
  cases hb : l[i]? with
  | none => rw [hb] at h; exact absurd h.symm hn
  | some b => rw [hb] at h; exact ⟨b, rfl, h⟩

theorem toNat_ofNat_valid {n : Nat} (h : n < 0xD800 ∨ 0xDFFF < n ∧ n < 0x110000) : (Char.ofNat n).toNat = n := by
  unfold Char.ofNat
  rw [dif_pos h]
  rfl

/-- Conversely, what is read as a character is its encoding. -/
theorem encoded_of_head {b : UInt8} {l : List UInt8} {c : Char} {k : Nat} (h : utf8Head b.toNat l = (some c, k)) :
    b :: l.take k = String.utf8EncodeChar c ∧ (l.take k).length = k := by
  have hb := UInt8.toNat_lt b
  generalize hbn : b.toNat = n at h hb
  have hb' := byte_eq hbn
  subst hb'
  have hsplit : ∀ {x : UInt8} {ls : List UInt8}, ls[0]? = some x → ∃ r, ls = x :: r := by
    intro x ls hx
    cases ls with
    | nil => cases hx
    | cons y r => cases hx; exact ⟨r, rfl⟩
  unfold utf8Head at h
  simp only at h
  unfold String.utf8EncodeChar
  split at h
  · injection h with h1 h2
    injection h1 with h1
    subst h1 h2
    have e : (Char.ofNat n).val.toNat = n := toNat_ofNat_valid (by omega)
    simp only [e]
    rw [if_pos (by omega)]
    exact ⟨rfl, rfl⟩
  split at h
  · split at h
    · rename_i h0 hr h1
      injection h with h2 h3
      injection h2 with h2
      subst h2 h3
      simp only [isCont, decide_eq_true_eq] at h1
      generalize hx : byteAt l 0 = x at h1 
      obtain ⟨b1, hb1, hbx⟩ := byteAt_pos hx (by omega)
      obtain ⟨r, rfl⟩ := hsplit hb1
      have hb1' := byte_eq hbx
      subst hb1'
      have e : (Char.ofNat ((n - 192) * 64 + (x - 128))).val.toNat = (n - 192) * 64 + (x - 128) :=
        toNat_ofNat_valid (by omega)
      simp only [e]
      rw [if_neg (by omega), if_pos (by omega)]
      refine ⟨?_, rfl⟩
      have e1 : ((n - 192) * 64 + (x - 128)) / 64 % 32 + 192 = n := by omega
      have e2 : ((n - 192) * 64 + (x - 128)) % 64 + 128 = x := by omega
      rw [e1, e2]
      rfl
    · cases h
  split at h
  · split at h
    · cases h
    split at h
    · cases h
    rename_i h0 hr0 hr h1 h2
    injection h with h3 h4
    injection h3 with h3
    subst h3 h4
    simp only [second3, isCont, Bool.not_eq_true', decide_eq_false_iff_not, Classical.not_not] at h1 h2
    generalize hx : byteAt l 0 = x at h1
    generalize hy : byteAt l 1 = y at h2
    obtain ⟨b1, hb1, hbx⟩ := byteAt_pos hx (by omega)
    obtain ⟨r, rfl⟩ := hsplit hb1
    obtain ⟨b2, hb2, hby⟩ := byteAt_pos hy (by omega)
    obtain ⟨r, rfl⟩ := hsplit (ls := r) hb2
    have hb1' := byte_eq hbx
    have hb2' := byte_eq hby
    subst hb1' hb2'
    have e : (Char.ofNat ((n - 224) * 4096 + (x - 128) * 64 + (y - 128))).val.toNat =
        (n - 224) * 4096 + (x - 128) * 64 + (y - 128) := toNat_ofNat_valid (by omega)
    simp only [e]
    rw [if_neg (by omega), if_neg (by omega), if_pos (by omega)]
    refine ⟨?_, rfl⟩
    have e1 : ((n - 224) * 4096 + (x - 128) * 64 + (y - 128)) / 4096 % 16 + 224 = n := by omega
    have e2 : ((n - 224) * 4096 + (x - 128) * 64 + (y - 128)) / 64 % 64 + 128 = x := by omega
    have e3 : ((n - 224) * 4096 + (x - 128) * 64 + (y - 128)) % 64 + 128 = y := by omega
    rw [e1, e2, e3]
    rfl
  split at h
  · split at h
    · cases h
    split at h
    · cases h
    split at h
    · cases h
    rename_i h0 hr0 hr1 hr h1 h2 h3
    injection h with h4 h5
    injection h4 with h4
    subst h4 h5
    simp only [second4, isCont, Bool.not_eq_true', decide_eq_false_iff_not, Classical.not_not] at h1 h2 h3
    generalize hx : byteAt l 0 = x at h1
    generalize hy : byteAt l 1 = y at h2
    generalize hz : byteAt l 2 = z at h3
    obtain ⟨b1, hb1, hbx⟩ := byteAt_pos hx (by omega)
    obtain ⟨r, rfl⟩ := hsplit hb1
    obtain ⟨b2, hb2, hby⟩ := byteAt_pos hy (by omega)
    obtain ⟨r, rfl⟩ := hsplit (ls := r) hb2
    obtain ⟨b3, hb3, hbz⟩ := byteAt_pos hz (by omega)
    obtain ⟨r, rfl⟩ := hsplit (ls := r) hb3
    have hb1' := byte_eq hbx
    have hb2' := byte_eq hby
    have hb3' := byte_eq hbz
    subst hb1' hb2' hb3'
    have e : (Char.ofNat ((n - 240) * 262144 + (x - 128) * 4096 + (y - 128) * 64 + (z - 128))).val.toNat =
        (n - 240) * 262144 + (x - 128) * 4096 + (y - 128) * 64 + (z - 128) := toNat_ofNat_valid (by omega)
    simp only [e]
    rw [if_neg (by omega), if_neg (by omega), if_neg (by omega)]
    refine ⟨?_, rfl⟩
    have e1 : ((n - 240) * 262144 + (x - 128) * 4096 + (y - 128) * 64 + (z - 128)) / 262144 % 8 + 240 = n := by omega
    have e2 : ((n - 240) * 262144 + (x - 128) * 4096 + (y - 128) * 64 + (z - 128)) / 4096 % 64 + 128 = x := by omega
    have e3 : ((n - 240) * 262144 + (x - 128) * 4096 + (y - 128) * 64 + (z - 128)) / 64 % 64 + 128 = y := by omega
    have e4 : ((n - 240) * 262144 + (x - 128) * 4096 + (y - 128) * 64 + (z - 128)) % 64 + 128 = z := by omega
    rw [e1, e2, e3, e4]
    rfl
  · cases h

theorem parts_drop : ∀ (k : Nat) (l : List UInt8), utf8Parts k l = utf8Parts 0 (l.drop k)
  | 0, l => by rw [List.drop_zero]
  | _ + 1, [] => rfl
  | k + 1, _ :: l => parts_drop k l

/-- The bytes are those of a text exactly when they are read without an invalid part. -/
theorem parts_valid : ∀ (t : List Char) (l : List UInt8), utf8Parts 0 l = t.map some ↔ l = strBytes t := by
  intro t
  induction t with
  | nil =>
    intro l
    cases l with
    | nil => exact ⟨fun _ => rfl, fun _ => rfl⟩
    | cons b l => exact ⟨fun h => by simp [utf8Parts] at h, fun h => by simp [strBytes] at h⟩
  | cons c t ih =>
    intro l
    constructor
    · intro h
      cases l with
      | nil => simp [utf8Parts] at h
      | cons b l =>
        rw [utf8Parts, List.map_cons] at h
        injection h with h1 h2
        obtain ⟨k1, _⟩ := encoded_of_head (k := (utf8Head b.toNat l).2) (Prod.ext h1 rfl)
        rw [parts_drop] at h2
        have h3 := (ih _).1 h2
        rw [strBytes, List.flatMap_cons, ← k1]
        show _ = _ ++ strBytes t
        rw [← h3, List.cons_append, List.take_append_drop]
    · intro h
      rw [h]
      exact parts_bytes (c :: t)

theorem mapM_some : ∀ (t : List Char), (t.map some).mapM id = some t
  | [] => rfl
  | c :: t => by rw [List.map_cons, List.mapM_cons, mapM_some t]; rfl

theorem mapM_eq_some : ∀ {l : List (Option Char)} {t : List Char}, l.mapM id = some t → l = t.map some
  | [], t, h => by cases h; rfl
  | o :: l, t, h => by
    rw [List.mapM_cons] at h
    cases o with
    | none => cases h
    | some c =>
      cases hl : l.mapM id with
      | none => rw [hl] at h; cases h
      | some t' =>
        rw [hl] at h
        cases h
        rw [mapM_eq_some hl]
        rfl

theorem fromUtf8_iff (l : List UInt8) (t : List Char) : fromUtf8 l = some t ↔ l = strBytes t := by
  rw [← parts_valid, fromUtf8]
  exact ⟨mapM_eq_some, fun h => by rw [h, mapM_some]⟩

theorem lossy_bytes (t : List Char) : fromUtf8Lossy (strBytes t) = t := by
  rw [fromUtf8Lossy, parts_bytes, List.map_map]
  exact List.map_id t

theorem lossy_invalid {l : List UInt8} (h : ¬ ∃ t, l = strBytes t) : Char.ofNat 0xFFFD ∈ fromUtf8Lossy l := by
  have : none ∈ utf8Parts 0 l := by
    apply Classical.byContradiction
    intro hn
    refine h ⟨(utf8Parts 0 l).filterMap id, (parts_valid _ _).1 ?_⟩
    generalize utf8Parts 0 l = ps at hn
    induction ps with
    | nil => rfl
    | cons o ps ih =>
      cases o with
      | none => exact absurd (List.mem_cons_self ..) hn
      | some c =>
        rw [List.filterMap_cons]
        show _ = some c :: _
        rw [← ih (fun hm => hn (List.mem_cons_of_mem _ hm))]
  exact List.mem_map.2 ⟨none, this, rfl⟩

/-! ### Invalid parts -/

open Spec

theorem byteAt_ge {l : List UInt8} {i : Nat} (h : byteAt l i ≠ 0) : i < l.length := by
  obtain ⟨b, hb, _⟩ := byteAt_pos rfl h
  exact (List.getElem?_eq_some_iff.1 hb).1

/-- What is known of an invalid part. -/
theorem head_none {b k : Nat} {l : List UInt8} (h : utf8Head b l = (none, k)) :
    k ≤ l.length ∧
    (∀ l', (∀ i ≤ k, byteAt l' i = byteAt l i) → utf8Head b l' = (none, k)) ∧
    (k = 0 ∨
     k = 1 ∧ 0xE0 ≤ b ∧ b ≤ 0xEF ∧ second3 b (byteAt l 0) = true ∨
     k = 1 ∧ 0xF0 ≤ b ∧ b ≤ 0xF4 ∧ second4 b (byteAt l 0) = true ∨
     k = 2 ∧ 0xF0 ≤ b ∧ b ≤ 0xF4 ∧ second4 b (byteAt l 0) = true ∧ isCont (byteAt l 1) = true) := by
  have nz3 : ∀ {c : Nat}, second3 b c = true → c ≠ 0 := by
    intro c hc; have := of_decide_eq_true hc; omega
  have nz4 : ∀ {c : Nat}, second4 b c = true → c ≠ 0 := by
    intro c hc; have := of_decide_eq_true hc; omega
  have nzc : ∀ {c : Nat}, isCont c = true → c ≠ 0 := by
    intro c hc; have := of_decide_eq_true hc; omega
  have e := h
  unfold utf8Head at e
  simp only at e
  split at e
  · cases e
  rename_i h1
  split at e
  · rename_i h2
    split at e
    · cases e
    rename_i h3
    cases e
    refine ⟨Nat.zero_le _, fun l' hl => ?_, .inl rfl⟩
    unfold utf8Head
    simp only
    rw [if_neg h1, if_pos h2, hl 0 (Nat.le_refl _), if_neg h3]
  rename_i h2
  split at e
  · rename_i h3
    split at e
    · rename_i h4
      cases e
      refine ⟨Nat.zero_le _, fun l' hl => ?_, .inl rfl⟩
      unfold utf8Head
      simp only
      rw [if_neg h1, if_neg h2, if_pos h3, hl 0 (Nat.le_refl _), if_pos h4]
    rename_i h4
    split at e
    · rename_i h5
      cases e
      have h4' : second3 b (byteAt l 0) = true := by simpa using h4
      refine ⟨byteAt_ge (nz3 h4'), fun l' hl => ?_, .inr (.inl ⟨rfl, h3.1, h3.2, h4'⟩)⟩
      unfold utf8Head
      simp only
      rw [if_neg h1, if_neg h2, if_pos h3, hl 0 (by omega), if_neg h4, hl 1 (by omega), if_pos h5]
    · cases e
  rename_i h3
  split at e
  · rename_i h4
    split at e
    · rename_i h5
      cases e
      refine ⟨Nat.zero_le _, fun l' hl => ?_, .inl rfl⟩
      unfold utf8Head
      simp only
      rw [if_neg h1, if_neg h2, if_neg h3, if_pos h4, hl 0 (Nat.le_refl _), if_pos h5]
    rename_i h5
    have h5' : second4 b (byteAt l 0) = true := by simpa using h5
    split at e
    · rename_i h6
      cases e
      refine ⟨byteAt_ge (nz4 h5'), fun l' hl => ?_, .inr (.inr (.inl ⟨rfl, h4.1, h4.2, h5'⟩))⟩
      unfold utf8Head
      simp only
      rw [if_neg h1, if_neg h2, if_neg h3, if_pos h4, hl 0 (by omega), if_neg h5, hl 1 (by omega), if_pos h6]
    rename_i h6
    have h6' : isCont (byteAt l 1) = true := by simpa using h6
    split at e
    · rename_i h7
      cases e
      refine ⟨byteAt_ge (nzc h6'), fun l' hl => ?_, .inr (.inr (.inr ⟨rfl, h4.1, h4.2, h5', h6'⟩))⟩
      unfold utf8Head
      simp only
      rw [if_neg h1, if_neg h2, if_neg h3, if_pos h4, hl 0 (by omega), if_neg h5, hl 1 (by omega), if_neg h6,
        hl 2 (by omega), if_pos h7]
    · cases e
  · rename_i h4
    cases e
    refine ⟨Nat.zero_le _, fun l' hl => ?_, .inl rfl⟩
    unfold utf8Head
    simp only
    rw [if_neg h1, if_neg h2, if_neg h3, if_neg h4]

theorem byteAt_prefix {x l : List UInt8} {i : Nat} (h : x <+: l) (hi : i < x.length) : byteAt x i = byteAt l i := by
  obtain ⟨r, rfl⟩ := h
  unfold byteAt
  rw [List.getElem?_append_left hi]

/-- Nothing longer than an invalid part begins a character. -/
theorem none_longest {b : UInt8} {k : Nat} {l y : List UInt8} (h : utf8Head b.toNat l = (none, k)) (hy : y <+: b :: l)
    (ho : Opens y) : y.length ≤ k + 1 := by
  obtain ⟨c, hc⟩ := ho
  apply Nat.le_of_not_lt
  intro hk
  obtain ⟨b', m, h1, h2⟩ := head_of_encoded c []
  rw [List.append_nil] at h2
  rw [h1] at hc
  cases y with
  | nil => simp at hk
  | cons a y =>
    obtain ⟨hb, hy'⟩ := List.cons_prefix_cons.1 hy
    obtain ⟨hb', hc'⟩ := List.cons_prefix_cons.1 hc
    subst hb hb'
    have := (head_none h).2.1 m fun i hi => by
      have hl : i < y.length := by simp at hk; omega
      rw [← byteAt_prefix hc' hl, byteAt_prefix hy' hl]
    rw [h2] at this
    cases this

theorem none_no_char {b : UInt8} {k : Nat} {l : List UInt8} (h : utf8Head b.toNat l = (none, k)) (c : Char) :
    ¬ String.utf8EncodeChar c <+: b :: l := by
  rintro ⟨r, hr⟩
  obtain ⟨b', m, h1, h2⟩ := head_of_encoded c r
  rw [h1, List.cons_append] at hr
  injection hr with hb hm
  subst hb hm
  rw [h] at h2
  cases h2

theorem take_byteAt {l : List UInt8} {k : Nat} (h : k < l.length) :
    l.take (k + 1) = l.take k ++ [UInt8.ofNat (byteAt l k)] := by
  rw [List.take_succ_eq_append_getElem h]
  unfold byteAt
  rw [List.getElem?_eq_getElem h]
  simp

theorem byteAt_lt (l : List UInt8) (i : Nat) : byteAt l i < 256 := by
  unfold byteAt
  cases l[i]? with
  | none => simp
  | some b => simpa using UInt8.toNat_lt b

/-- An invalid part of more than a byte begins a character. -/
theorem none_opens {b : UInt8} {k : Nat} {l : List UInt8} (h : utf8Head b.toNat l = (none, k)) (hk : k ≠ 0) :
    Opens (b :: l.take k) := by
  obtain ⟨hl, -, hc⟩ := head_none h
  have key : ∀ (m : List UInt8) (c : Char) (j : Nat), utf8Head b.toNat m = (some c, j) → m.length = j → l.take k <+: m →
      Opens (b :: l.take k) := by
    intro m c j hm hj hp
    refine ⟨c, ?_⟩
    rw [← (encoded_of_head hm).1, List.take_of_length_le (l := m) (by omega)]
    exact List.cons_prefix_cons.2 ⟨rfl, hp⟩
  rcases hc with hc | ⟨rfl, h1, h2, h3⟩ | ⟨rfl, h1, h2, h3⟩ | ⟨rfl, h1, h2, h3, h4⟩
  · exact absurd hc hk
  · refine key [UInt8.ofNat (byteAt l 0), UInt8.ofNat 0x80] _ 2 (head3 ⟨h1, h2⟩ (byteAt_zero (byteAt_lt l 0))
      (of_decide_eq_true h3) (byteAt_one (by decide)) (by decide)) rfl ?_
    rw [take_byteAt (by omega), List.take_zero, List.nil_append]
    exact ⟨_, rfl⟩
  · refine key [UInt8.ofNat (byteAt l 0), UInt8.ofNat 0x80, UInt8.ofNat 0x80] _ 3 (head4 ⟨h1, h2⟩
      (byteAt_zero (byteAt_lt l 0)) (of_decide_eq_true h3) (byteAt_one (by decide)) (by decide) (byteAt_two (by decide))
      (by decide)) rfl ?_
    rw [take_byteAt (by omega), List.take_zero, List.nil_append]
    exact ⟨_, rfl⟩
  · refine key [UInt8.ofNat (byteAt l 0), UInt8.ofNat (byteAt l 1), UInt8.ofNat 0x80] _ 3 (head4 ⟨h1, h2⟩
      (byteAt_zero (byteAt_lt l 0)) (of_decide_eq_true h3) (byteAt_one (byteAt_lt l 1)) (of_decide_eq_true h4)
      (byteAt_two (by decide)) (by decide)) rfl ?_
    rw [take_byteAt (by omega), take_byteAt (by omega), List.take_zero, List.nil_append]
    exact ⟨_, rfl⟩

theorem lossy_read : ∀ (n : Nat) (l : List UInt8), l.length ≤ n → ReadAs l (fromUtf8Lossy l)
  | _, [], _ => .nil
  | 0, _ :: _, h => by simp at h
  | n + 1, b :: l, hn => by
    rw [fromUtf8Lossy, utf8Parts, List.map_cons, parts_drop]
    have ih := lossy_read n (l.drop (utf8Head b.toNat l).2) (by simp at hn ⊢; omega)
    cases hh : utf8Head b.toNat l with
    | mk o k =>
      rw [hh] at ih
      cases o with
      | some c =>
        have := (encoded_of_head hh).1
        have e : b :: l = String.utf8EncodeChar c ++ l.drop k := by
          rw [← this, List.cons_append, List.take_append_drop]
        rw [e]
        exact .char ih
      | none =>
        have e : b :: l = (b :: l.take k) ++ l.drop k := by rw [List.cons_append, List.take_append_drop]
        have hk := (head_none hh).1
        have hlen : (b :: l.take k).length = k + 1 := by simp; omega
        have h1 := none_no_char hh
        have h2 := fun y hy ho => none_longest (y := y) hh hy ho
        rw [e] at h1 h2 ⊢
        refine .bad h1 (by simp) ?_ (fun y hy ho => by rw [hlen]; exact h2 y hy ho) ih
        by_cases h0 : k = 0
        · left; rw [hlen, h0]
        · exact .inr (none_opens hh h0)

theorem read_lossy {l : List UInt8} {t : List Char} (h : ReadAs l t) : fromUtf8Lossy l = t := by
  induction h with
  | nil => rfl
  | @char c bs t _ ih =>
    rw [fromUtf8Lossy, parts_encoded, List.map_cons]
    exact congrArg _ ih
  | @bad x bs t h1 h2 h3 h4 _ ih =>
    cases x with
    | nil => exact absurd rfl h2
    | cons b x =>
      cases hh : utf8Head b.toNat (x ++ bs) with
      | mk o k =>
        have e : b :: (x ++ bs) = (b :: (x ++ bs).take k) ++ (x ++ bs).drop k := by
          rw [List.cons_append, List.take_append_drop]
        cases o with
        | some c =>
          exact absurd ⟨(x ++ bs).drop k, by rw [← (encoded_of_head hh).1]; exact e.symm⟩ (h1 c)
        | none =>
          have hk := (head_none hh).1
          have hle : (b :: x).length ≤ k + 1 := by
            rcases h3 with h3 | h3
            · omega
            · exact none_longest hh ⟨bs, rfl⟩ h3
          have hge : k + 1 ≤ (b :: x).length := by
            by_cases h0 : k = 0
            · simp [h0]
            · have := h4 _ ⟨_, e.symm⟩ (none_opens hh h0)
              simp at this hk ⊢
              omega
          have hx : k = x.length := by simp at hle hge; omega
          rw [List.cons_append, fromUtf8Lossy, utf8Parts, hh, parts_drop, List.map_cons, hx, List.drop_left]
          exact congrArg _ ih

/-- `decode_utf8_lossy` is the way Unicode recommends. -/
theorem lossy_iff {l : List UInt8} {t : List Char} : fromUtf8Lossy l = t ↔ ReadAs l t :=
  ⟨fun h => h ▸ lossy_read _ l (Nat.le_refl _), read_lossy⟩

end Noodle
