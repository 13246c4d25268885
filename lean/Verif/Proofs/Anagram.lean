import Verif.Model.Expand
import Verif.Proofs.BuildEq
import Verif.Proofs.Chars
import Mathlib.Data.List.Count
/-
The strings the generated constraint expressions of an anagram block stand for.
-/
namespace Noodle
open Spec
set_option autoImplicit false

/-! ### histograms -/

theorem bins_spec (bank : List Ch) : (bins bank).length = 28 ∧ (bins bank).sum = bank.length ∧
    ∀ c : Ch, (bins bank)[c.val]? = some (bank.count c) := by
  have key : ∀ (bank : List Ch) (set : List Nat) (f : Ch → Nat), set.length = 28 → (∀ c : Ch, set[c.val]? = some (f c)) →
      (bank.foldl (fun set (l : Ch) => set.modify l.val (· + 1)) set).length = 28 ∧
      (bank.foldl (fun set (l : Ch) => set.modify l.val (· + 1)) set).sum = set.sum + bank.length ∧
      ∀ c : Ch, (bank.foldl (fun set (l : Ch) => set.modify l.val (· + 1)) set)[c.val]? = some (f c + bank.count c) := by
    intro bank
    induction bank with
    | nil => intro set f h1 h2; exact ⟨h1, by simp, fun c => by rw [List.foldl_nil, h2 c]; simp⟩
    | cons a bank ih =>
      intro set f h1 h2
      have hs : ∀ (set : List Nat) (i : Nat), i < set.length → (set.modify i (· + 1)).sum = set.sum + 1 := by
        intro set
        induction set with
        | nil => intro i h; simp at h
        | cons x set ih2 =>
          intro i h
          cases i with
          | zero => simp; omega
          | succ i => simp at h; simp [ih2 i h]; omega
      obtain ⟨k1, k2, k3⟩ := ih (set.modify a.val (· + 1)) (fun c => f c + if a = c then 1 else 0) (by simp [h1]) (by
        intro c
        rw [List.getElem?_modify, h2]
        by_cases hac : a = c
        · subst hac; simp
        · have : a.val ≠ c.val := fun h => hac (Fin.ext h)
          simp [hac, this])
      refine ⟨k1, ?_, fun c => ?_⟩
      · rw [List.foldl_cons, k2, hs _ _ (by rw [h1]; exact a.isLt)]; simp; omega
      · rw [List.foldl_cons, k3, List.count_cons]
        by_cases hac : a = c
        · simp [hac]; omega
        · simp [hac]
  have h0 : ∀ c : Ch, (List.replicate 28 0)[c.val]? = some 0 := by
    intro c; rw [List.getElem?_replicate]; simp
  obtain ⟨k1, k2, k3⟩ := key bank (List.replicate 28 0) (fun _ => 0) (by simp) h0
  refine ⟨k1, ?_, fun c => ?_⟩
  · unfold bins; rw [k2]; simp
  · unfold bins; rw [k3]; simp

theorem mem_histogram {bank : List Ch} {c : Ch} {n : Nat} : (c, n) ∈ histogram bank ↔ n = bank.count c ∧ c ∈ bank := by
  obtain ⟨h1, _, h3⟩ := bins_spec bank
  unfold histogram
  rw [List.mem_filterMap]
  constructor
  · rintro ⟨⟨m, i⟩, hm, h⟩
    rw [List.mem_zipIdx_iff_getElem?] at hm
    simp only at hm h
    split at h
    · rename_i hpos
      rw [Option.some.injEq, Prod.mk.injEq] at h
      obtain ⟨hc, rfl⟩ := h
      have hi : i < 28 := by
        have := (List.getElem?_eq_some_iff.1 hm).1
        omega
      have hci : c.val = i := by rw [← hc]; exact Nat.mod_eq_of_lt hi
      subst hci
      rw [h3, Option.some.injEq] at hm
      subst hm
      exact ⟨rfl, List.count_pos_iff.1 hpos⟩
    · cases h
  · rintro ⟨rfl, hc⟩
    refine ⟨(bank.count c, c.val), ?_, ?_⟩
    · rw [List.mem_zipIdx_iff_getElem?]; exact h3 c
    · simp only [List.count_pos_iff.2 hc, if_true, Option.some.injEq, Prod.mk.injEq, and_true]
      exact Fin.ext (Nat.mod_eq_of_lt c.isLt)

theorem histogram_sum (bank : List Ch) : ((histogram bank).map (·.2)).sum = bank.length := by
  obtain ⟨_, h2, _⟩ := bins_spec bank
  rw [← h2]
  unfold histogram
  generalize bins bank = l
  have key : ∀ (l : List Nat) (k : Nat), (((l.zipIdx k).filterMap fun p =>
      if 0 < p.1 then some (Fin.ofNat 28 p.2, p.1) else none).map (·.2)).sum = l.sum := by
    intro l
    induction l with
    | nil => intro k; rfl
    | cons a l ih =>
      intro k
      rw [List.zipIdx_cons, List.filterMap_cons]
      by_cases h : 0 < a
      · simp only [h, if_true, List.map_cons, List.sum_cons, ih]
      · simp only [h, if_false, ih, List.sum_cons]; omega
  exact key l 0

theorem contains_bankSet {hist : List (Ch × Nat)} {x : Ch} : (bankSet hist).contains x = true ↔ ∃ n, (x, n) ∈ hist := by
  unfold bankSet
  have key : ∀ (hist : List (Ch × Nat)) (s : CharSet), (hist.foldl (fun s p => s.union (CharSet.ofCh p.1)) s).contains x = true ↔
      s.contains x = true ∨ ∃ n, (x, n) ∈ hist := by
    intro hist
    induction hist with
    | nil => intro s; simp
    | cons p hist ih =>
      intro s
      rw [List.foldl_cons, ih, CharSet.contains_union, CharSet.contains_ofCh]
      simp only [Bool.or_eq_true, decide_eq_true_eq, List.mem_cons]
      constructor
      · rintro ((h | h) | ⟨n, h⟩)
        · exact .inl h
        · exact .inr ⟨p.2, .inl (by rw [h])⟩
        · exact .inr ⟨n, .inr h⟩
      · rintro (h | ⟨n, h | h⟩)
        · exact .inl (.inl h)
        · exact .inl (.inr (by rw [← h]))
        · exact .inr ⟨n, h⟩
  rw [key]
  simp [CharSet.contains_empty]

theorem contains_bank {bank : List Ch} {x : Ch} : (bankSet (histogram bank)).contains x = true ↔ x ∈ bank := by
  rw [contains_bankSet]
  constructor
  · rintro ⟨n, h⟩; exact (mem_histogram.1 h).2
  · intro h; exact ⟨_, mem_histogram.2 ⟨rfl, h⟩⟩

/-! ### repetitions of a class -/

theorem lang_copies {c : CharSet} : ∀ (k : Nat) {v : List Ch}, Lang (.seq (List.replicate k (.cls c))) v ↔
    v.length = k ∧ ∀ x ∈ v, c.contains x = true
  | 0, v => by
    rw [List.replicate_zero, lang_seq_nil]
    constructor
    · rintro rfl; simp
    · rintro ⟨h, _⟩; exact List.length_eq_zero_iff.1 h
  | k + 1, v => by
    rw [List.replicate_succ, lang_seq_cons]
    constructor
    · rintro ⟨u, v, rfl, h1, h2⟩
      obtain ⟨x, rfl, hx⟩ := lang_cls.1 h1
      obtain ⟨h3, h4⟩ := (lang_copies k).1 h2
      exact ⟨by simp [h3], List.forall_mem_cons.2 ⟨hx, h4⟩⟩
    · rintro ⟨h1, h2⟩
      cases v with
      | nil => cases h1
      | cons x v =>
        rw [List.forall_mem_cons] at h2
        exact ⟨[x], v, rfl, lang_cls.2 ⟨x, rfl, h2.1⟩, (lang_copies k).2 ⟨by simpa using h1, h2.2⟩⟩

theorem lang_rep_cls {c : CharSet} {lo : Nat} {hi : Option Nat} {v : List Ch} : Lang (.rep (.cls c) lo hi) v ↔
    lo ≤ v.length ∧ (∀ m ∈ hi, v.length ≤ m) ∧ ∀ x ∈ v, c.contains x = true := by
  rw [lang_rep]
  constructor
  · rintro ⟨k, h1, h2, h3⟩
    obtain ⟨rfl, h4⟩ := (lang_copies k).1 h3
    exact ⟨h1, h2, h4⟩
  · rintro ⟨h1, h2, h3⟩
    exact ⟨_, h1, h2, (lang_copies _).2 ⟨rfl, h3⟩⟩

theorem lang_star_cls {c : CharSet} {v : List Ch} : Lang (.rep (.cls c) 0 none) v ↔ ∀ x ∈ v, c.contains x = true := by
  rw [lang_rep_cls]; simp

/-- `fill ch fill ch ... fill`, with `k` copies of `ch`. -/
def weave (fill ch : Ast) (k : Nat) : Ast := .seq ((List.replicate k [fill, ch]).flatten ++ [fill])

theorem lang_weave_zero {fill ch : Ast} {v : List Ch} : Lang (weave fill ch 0) v ↔ Lang fill v := by
  unfold weave; simp [lang_seq_one]

theorem lang_weave_succ {fill ch : Ast} {k : Nat} {v : List Ch} : Lang (weave fill ch (k + 1)) v ↔
    ∃ p q r, v = p ++ (q ++ r) ∧ Lang fill p ∧ Lang ch q ∧ Lang (weave fill ch k) r := by
  unfold weave
  rw [List.replicate_succ, List.flatten_cons, List.cons_append, List.cons_append, List.cons_append, List.nil_append,
    lang_seq_cons]
  constructor
  · rintro ⟨p, v, rfl, h1, h2⟩
    obtain ⟨q, r, rfl, h3, h4⟩ := lang_seq_cons.1 h2
    exact ⟨p, q, r, rfl, h1, h3, h4⟩
  · rintro ⟨p, q, r, rfl, h1, h3, h4⟩
    exact ⟨p, q ++ r, rfl, h1, lang_seq_cons.2 ⟨q, r, rfl, h3, h4⟩⟩

theorem lang_ofCh {c : Ch} {v : List Ch} : Lang (.cls (CharSet.ofCh c)) v ↔ v = [c] := by
  rw [lang_cls]
  constructor
  · rintro ⟨x, rfl, h⟩
    rw [CharSet.contains_ofCh, decide_eq_true_eq] at h
    rw [h]
  · rintro rfl; exact ⟨c, rfl, by rw [CharSet.contains_ofCh]; simp⟩

/-- exactly `k` copies of `c`, everything else from `s` -/
theorem weave_exact {s : CharSet} {c : Ch} (hs : s.contains c = false) : ∀ (k : Nat) {v : List Ch},
    Lang (weave (.rep (.cls s) 0 none) (.cls (CharSet.ofCh c)) k) v ↔ v.count c = k ∧ ∀ x ∈ v, x = c ∨ s.contains x = true
  | 0, v => by
    rw [lang_weave_zero, lang_star_cls, List.count_eq_zero]
    constructor
    · intro h
      exact ⟨fun hc => absurd (h c hc) (by simp [hs]), fun x hx => .inr (h x hx)⟩
    · rintro ⟨h1, h2⟩ x hx
      rcases h2 x hx with rfl | h
      · exact absurd hx h1
      · exact h
  | k + 1, v => by
    rw [lang_weave_succ]
    constructor
    · rintro ⟨p, q, r, rfl, h1, h2, h3⟩
      rw [lang_star_cls] at h1
      rw [lang_ofCh] at h2
      subst h2
      obtain ⟨h4, h5⟩ := (weave_exact hs k).1 h3
      have hp : p.count c = 0 := List.count_eq_zero.2 fun hc => by rw [h1 c hc] at hs; cases hs
      refine ⟨by simp [hp, h4], fun x hx => ?_⟩
      simp only [List.mem_append, List.mem_singleton] at hx
      rcases hx with hx | hx | hx
      · exact .inr (h1 x hx)
      · exact .inl hx
      · exact h5 x hx
    · rintro ⟨h1, h2⟩
      have hc : c ∈ v := List.count_pos_iff.1 (by omega)
      obtain ⟨p, r, rfl, hp⟩ := List.eq_append_cons_of_mem hc
      have hp0 := List.count_eq_zero.2 hp
      refine ⟨p, [c], r, by simp, lang_star_cls.2 fun x hx => ?_, lang_ofCh.2 rfl, (weave_exact hs k).2 ⟨?_, fun x hx => h2 x (by simp [hx])⟩⟩
      · rcases h2 x (by simp [hx]) with rfl | h
        · exact absurd hx hp
        · exact h
      · simp [hp0] at h1; omega

/-- at most `k` copies of `c`, everything else from `s` -/
theorem weave_most {s : CharSet} {c : Ch} (hs : s.contains c = false) : ∀ (k : Nat) {v : List Ch},
    Lang (weave (.rep (.cls s) 0 none) (.rep (.cls (CharSet.ofCh c)) 0 (some 1)) k) v ↔
      v.count c ≤ k ∧ ∀ x ∈ v, x = c ∨ s.contains x = true
  | 0, v => by
    rw [lang_weave_zero, lang_star_cls, Nat.le_zero, List.count_eq_zero]
    constructor
    · intro h
      exact ⟨fun hc => absurd (h c hc) (by simp [hs]), fun x hx => .inr (h x hx)⟩
    · rintro ⟨h1, h2⟩ x hx
      rcases h2 x hx with rfl | h
      · exact absurd hx h1
      · exact h
  | k + 1, v => by
    rw [lang_weave_succ]
    constructor
    · rintro ⟨p, q, r, rfl, h1, h2, h3⟩
      rw [lang_star_cls] at h1
      rw [lang_rep_cls] at h2
      obtain ⟨-, hq, h2⟩ := h2
      have hq := hq 1 rfl
      obtain ⟨h4, h5⟩ := (weave_most hs k).1 h3
      have hp : p.count c = 0 := List.count_eq_zero.2 fun hc => by rw [h1 c hc] at hs; cases hs
      have hq2 : q.count c ≤ 1 := Nat.le_trans List.count_le_length hq
      refine ⟨by rw [List.count_append, List.count_append]; omega, fun x hx => ?_⟩
      simp only [List.mem_append] at hx
      rcases hx with hx | hx | hx
      · exact .inr (h1 x hx)
      · have := h2 x hx
        rw [CharSet.contains_ofCh, decide_eq_true_eq] at this
        exact .inl this
      · exact h5 x hx
    · rintro ⟨h1, h2⟩
      by_cases hc : c ∈ v
      · obtain ⟨p, r, rfl, hp⟩ := List.eq_append_cons_of_mem hc
        have hp0 := List.count_eq_zero.2 hp
        refine ⟨p, [c], r, by simp, lang_star_cls.2 fun x hx => ?_, lang_rep_cls.2 ⟨by simp, by simp, ?_⟩,
          (weave_most hs k).2 ⟨?_, fun x hx => h2 x (by simp [hx])⟩⟩
        · rcases h2 x (by simp [hx]) with rfl | h
          · exact absurd hx hp
          · exact h
        · intro x hx
          rw [CharSet.contains_ofCh]; simpa using hx
        · simp [hp0] at h1; omega
      · refine ⟨v, [], [], by simp, lang_star_cls.2 fun x hx => ?_, lang_rep_cls.2 ⟨by simp, by simp, by simp⟩,
          (weave_most hs k).2 ⟨by simp, by simp⟩⟩
        rcases h2 x hx with rfl | h
        · exact absurd hx hc
        · exact h

/-- at least `k` copies of `c`, everything from `s` -/
theorem weave_least {s : CharSet} {c : Ch} (hs : s.contains c = true) : ∀ (k : Nat) {v : List Ch},
    Lang (weave (.rep (.cls s) 0 none) (.cls (CharSet.ofCh c)) k) v ↔ k ≤ v.count c ∧ ∀ x ∈ v, s.contains x = true
  | 0, v => by
    rw [lang_weave_zero, lang_star_cls]; simp
  | k + 1, v => by
    rw [lang_weave_succ]
    constructor
    · rintro ⟨p, q, r, rfl, h1, h2, h3⟩
      rw [lang_star_cls] at h1
      rw [lang_ofCh] at h2
      subst h2
      obtain ⟨h4, h5⟩ := (weave_least hs k).1 h3
      refine ⟨by simp; omega, fun x hx => ?_⟩
      simp only [List.mem_append, List.mem_singleton] at hx
      rcases hx with hx | hx | hx
      · exact h1 x hx
      · rw [hx]; exact hs
      · exact h5 x hx
    · rintro ⟨h1, h2⟩
      have hc : c ∈ v := List.count_pos_iff.1 (by omega)
      obtain ⟨p, r, rfl, hp⟩ := List.eq_append_cons_of_mem hc
      have hp0 := List.count_eq_zero.2 hp
      refine ⟨p, [c], r, by simp, lang_star_cls.2 fun x hx => h2 x (by simp [hx]), lang_ofCh.2 rfl,
        (weave_least hs k).2 ⟨?_, fun x hx => h2 x (by simp [hx])⟩⟩
      simp [hp0] at h1; omega

/-! ### the constraints -/

theorem ast_of_lt {kind : AnagramKind} {hist : List (Ch × Nat)} {i : Nat} {c : Ch} {n : Nat} (h : hist[i]? = some (c, n)) :
    astForAnagram kind hist i = weave (anagramFill kind (bankSet hist) c) (anagramChar kind c) n := by
  unfold astForAnagram; rw [h]; rfl

theorem ast_of_ge {kind : AnagramKind} {hist : List (Ch × Nat)} {i : Nat} (h : hist.length ≤ i) :
    astForAnagram kind hist i = anagramLength kind (bankSet hist) (hist.map (·.2)).sum := by
  unfold astForAnagram; rw [List.getElem?_eq_none h]

/-- A letter: not an apostrophe nor a word end. -/
abbrev Letter (c : Ch) : Prop := c.val < 26

/-- What the constraint on one symbol of the bank says. -/
def CountOk (kind : AnagramKind) (bank : List Ch) (c : Ch) (v : List Ch) : Prop :=
  match kind with
  | .standard => v.count c = bank.count c ∧ ∀ x ∈ v, x ∈ bank
  | .sub | .transDelete _ => v.count c ≤ bank.count c ∧ ∀ x ∈ v, x ∈ bank
  | .super | .transAdd _ => bank.count c ≤ v.count c ∧ ∀ x ∈ v, Letter x

/-- What the constraint on the length says. -/
def LengthOk (kind : AnagramKind) (bank : List Ch) (v : List Ch) : Prop :=
  match kind with
  | .standard => v.length = bank.length ∧ ∀ x ∈ v, x ∈ bank
  | .sub => v.length ≤ bank.length ∧ ∀ x ∈ v, x ∈ bank
  | .transDelete d => v.length = bank.length - d ∧ ∀ x ∈ v, x ∈ bank
  | .super => bank.length ≤ v.length ∧ ∀ x ∈ v, Letter x
  | .transAdd a => v.length = bank.length + a ∧ ∀ x ∈ v, Letter x

/-- The kinds that allow symbols that are not in the bank. -/
def AnagramKind.adds : AnagramKind → Bool
  | .super | .transAdd _ => true
  | _ => false

theorem lang_count {kind : AnagramKind} {bank : List Ch} {c : Ch} (hc : c ∈ bank) (hb : kind.adds = true → Letter c) {v : List Ch} :
    Lang (weave (anagramFill kind (bankSet (histogram bank)) c) (anagramChar kind c) (bank.count c)) v ↔ CountOk kind bank c v := by
  have h1 : ((bankSet (histogram bank)).diff (CharSet.ofCh c)).contains c = false := by
    rw [CharSet.contains_diff, CharSet.contains_ofCh]; simp
  have h2 : ∀ x, (x = c ∨ ((bankSet (histogram bank)).diff (CharSet.ofCh c)).contains x = true) ↔ x ∈ bank := by
    intro x
    rw [CharSet.contains_diff, CharSet.contains_ofCh, Bool.and_eq_true, contains_bank]
    by_cases hx : x = c
    · simp [hx, hc]
    · simp [hx]
  have h3 : ∀ x, CharSet.letters.contains x = true ↔ Letter x := by
    intro x; rw [CharSet.contains_letters, decide_eq_true_eq]
  cases kind with
  | standard =>
    have := weave_exact h1 (bank.count c) (v := v)
    simp only [h2] at this
    exact this
  | sub =>
    have := weave_most h1 (bank.count c) (v := v)
    simp only [h2] at this
    exact this
  | transDelete d =>
    have := weave_most h1 (bank.count c) (v := v)
    simp only [h2] at this
    exact this
  | super =>
    have := weave_least ((h3 c).2 (hb rfl)) (bank.count c) (v := v)
    simp only [h3] at this
    exact this
  | transAdd a =>
    have := weave_least ((h3 c).2 (hb rfl)) (bank.count c) (v := v)
    simp only [h3] at this
    exact this

theorem lang_length {kind : AnagramKind} {bank : List Ch} {v : List Ch} :
    Lang (anagramLength kind (bankSet (histogram bank)) bank.length) v ↔ LengthOk kind bank v := by
  have h3 : ∀ x, CharSet.letters.contains x = true ↔ Letter x := by
    intro x; rw [CharSet.contains_letters, decide_eq_true_eq]
  cases kind <;>
    (simp only [anagramLength, lang_rep_cls, LengthOk, contains_bank, h3, Option.mem_def, Option.some.injEq]
     constructor
     · rintro ⟨k1, k2, k3⟩
       refine ⟨?_, k3⟩
       first
       | exact k1
       | exact k2 _ rfl
       | exact Nat.le_antisymm (k2 _ rfl) k1
     · rintro ⟨k1, k2⟩
       refine ⟨by omega, ?_, k2⟩
       intro m hm
       first
       | omega
       | cases hm)

/-- Every string of an anagram block satisfies all the constraints generated for it. -/
theorem lang_replacement {kind : AnagramKind} {bank : List Ch} (hb : kind.adds = true → ∀ c ∈ bank, Letter c)
    {v : List Ch} (h : Anagrams kind bank v) (i : Nat) : Lang (astForAnagram kind (histogram bank) i) v := by
  by_cases hi : i < (histogram bank).length
  · obtain ⟨⟨c, n⟩, hcn⟩ : ∃ p, (histogram bank)[i]? = some p := ⟨_, List.getElem?_eq_getElem hi⟩
    obtain ⟨rfl, hc⟩ := mem_histogram.1 (List.mem_of_getElem? hcn)
    rw [ast_of_lt hcn, lang_count hc fun k => hb k c hc]
    cases kind with
    | standard => exact ⟨List.Perm.count_eq h c, fun x hx => (List.Perm.mem_iff h).1 hx⟩
    | sub =>
      obtain ⟨rest, h⟩ := h
      have := List.Perm.count_eq h c
      rw [List.count_append] at this
      exact ⟨by omega, fun x hx => (List.Perm.mem_iff h).1 (by simp [hx])⟩
    | transDelete d =>
      obtain ⟨rest, _, h⟩ := h
      have := List.Perm.count_eq h c
      rw [List.count_append] at this
      exact ⟨by omega, fun x hx => (List.Perm.mem_iff h).1 (by simp [hx])⟩
    | super =>
      obtain ⟨rest, h1, h⟩ := h
      have := List.Perm.count_eq h c
      rw [List.count_append] at this
      refine ⟨by omega, fun x hx => ?_⟩
      rcases List.mem_append.1 ((List.Perm.mem_iff h).1 hx) with hx | hx
      · exact hb rfl x hx
      · exact h1 x hx
    | transAdd a =>
      obtain ⟨rest, _, h1, h⟩ := h
      have := List.Perm.count_eq h c
      rw [List.count_append] at this
      refine ⟨by omega, fun x hx => ?_⟩
      rcases List.mem_append.1 ((List.Perm.mem_iff h).1 hx) with hx | hx
      · exact hb rfl x hx
      · exact h1 x hx
  · rw [ast_of_ge (by omega), histogram_sum, lang_length]
    cases kind with
    | standard => exact ⟨List.Perm.length_eq h, fun x hx => (List.Perm.mem_iff h).1 hx⟩
    | sub =>
      obtain ⟨rest, h⟩ := h
      have := List.Perm.length_eq h
      rw [List.length_append] at this
      exact ⟨by omega, fun x hx => (List.Perm.mem_iff h).1 (by simp [hx])⟩
    | transDelete d =>
      obtain ⟨rest, hr, h⟩ := h
      have := List.Perm.length_eq h
      rw [List.length_append] at this
      exact ⟨by omega, fun x hx => (List.Perm.mem_iff h).1 (by simp [hx])⟩
    | super =>
      obtain ⟨rest, h1, h⟩ := h
      have := List.Perm.length_eq h
      rw [List.length_append] at this
      refine ⟨by omega, fun x hx => ?_⟩
      rcases List.mem_append.1 ((List.Perm.mem_iff h).1 hx) with hx | hx
      · exact hb rfl x hx
      · exact h1 x hx
    | transAdd a =>
      obtain ⟨rest, hr, h1, h⟩ := h
      have := List.Perm.length_eq h
      rw [List.length_append] at this
      refine ⟨by omega, fun x hx => ?_⟩
      rcases List.mem_append.1 ((List.Perm.mem_iff h).1 hx) with hx | hx
      · exact hb rfl x hx
      · exact h1 x hx

theorem subperm_append {l m : List Ch} (h : l.Subperm m) : ∃ r, m.Perm (l ++ r) := by
  obtain ⟨l', h1, h2⟩ := h
  obtain ⟨r, hr⟩ := h2.exists_perm_append
  exact ⟨r, hr.trans (h1.append_right r)⟩

/-- All the constraints together say exactly that the string is an anagram. -/
theorem anagrams_of {kind : AnagramKind} {bank : List Ch} {v : List Ch}
    (h1 : ∀ c ∈ bank, CountOk kind bank c v) (h2 : LengthOk kind bank v) : Anagrams kind bank v := by
  have sub : (∀ x ∈ v, x ∈ bank) → (∀ c ∈ bank, v.count c ≤ bank.count c) → v.Subperm bank := by
    intro k1 k2
    rw [List.subperm_ext_iff]
    intro x hx
    exact k2 x (k1 x hx)
  have sup : (∀ c ∈ bank, bank.count c ≤ v.count c) → bank.Subperm v := by
    intro k2
    rw [List.subperm_ext_iff]
    exact k2
  cases kind with
  | standard =>
    obtain ⟨k1, k2⟩ := h2
    exact (sub k2 fun c hc => Nat.le_of_eq (h1 c hc).1).perm_of_length_le (by omega)
  | sub =>
    obtain ⟨k1, k2⟩ := h2
    obtain ⟨rest, hr⟩ := subperm_append (sub k2 fun c hc => (h1 c hc).1)
    exact ⟨rest, hr.symm⟩
  | transDelete d =>
    obtain ⟨k1, k2⟩ := h2
    obtain ⟨rest, hr⟩ := subperm_append (sub k2 fun c hc => (h1 c hc).1)
    have := hr.length_eq
    rw [List.length_append] at this
    exact ⟨rest, by omega, hr.symm⟩
  | super =>
    obtain ⟨k1, k2⟩ := h2
    obtain ⟨rest, hr⟩ := subperm_append (sup fun c hc => (h1 c hc).1)
    exact ⟨rest, fun c hc => k2 c (hr.mem_iff.2 (by simp [hc])), hr⟩
  | transAdd d =>
    obtain ⟨k1, k2⟩ := h2
    obtain ⟨rest, hr⟩ := subperm_append (sup fun c hc => (h1 c hc).1)
    have := hr.length_eq
    rw [List.length_append] at this
    exact ⟨rest, by omega, fun c hc => k2 c (hr.mem_iff.2 (by simp [hc])), hr⟩

/-- The strings that satisfy all the generated constraints are exactly the anagrams. -/
theorem lang_all_replacements {kind : AnagramKind} {bank : List Ch} (hb : kind.adds = true → ∀ c ∈ bank, Letter c)
    {v : List Ch} : (∀ i ≤ (histogram bank).length, Lang (astForAnagram kind (histogram bank) i) v) ↔ Anagrams kind bank v := by
  constructor
  · intro h
    apply anagrams_of
    · intro c hc
      obtain ⟨i, hi⟩ := List.getElem?_of_mem (mem_histogram.2 ⟨rfl, hc⟩)
      have := h i (Nat.le_of_lt (List.getElem?_eq_some_iff.1 hi).1)
      rw [ast_of_lt hi] at this
      exact (lang_count hc fun k => hb k c hc).1 this
    · have := h _ (Nat.le_refl _)
      rw [ast_of_ge (Nat.le_refl _), histogram_sum] at this
      exact lang_length.1 this
  · intro h i _
    exact lang_replacement hb h i

end Noodle
