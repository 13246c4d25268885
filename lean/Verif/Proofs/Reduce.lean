import Verif.Proofs.Filter
/-
State reduction in `optimize_for_wordlist`: state level.
-/
namespace Noodle
open Spec

/-! ### Reachable states and candidates -/

theorem stepAll_spec (fl : Nat) (live : List Tbl) (cur : Rows) (hl : cur.length = fl) :
    (stepAll fl live cur).length = fl ∧ ∀ g d, ((stepAll fl live cur).at g).testBit d = true ↔
      (cur.at g).testBit d = true ∨ ∃ t ∈ live, ∃ f df s, f + df = g ∧ g < fl ∧ (cur.at f).testBit s = true ∧
        ((t.row s).at df).testBit d = true := by
  unfold stepAll
  exact foldl_or_gen (fun next t => stepInto fl t cur next)
    (fun t g d => ∃ f df s, f + df = g ∧ g < fl ∧ (cur.at f).testBit s = true ∧
        ((t.row s).at df).testBit d = true) fl live
    (fun t _ r hr => by
      have := stepInto_spec fl t cur r (by omega)
      exact ⟨by rw [this.1, hr], this.2⟩) cur hl

theorem path_closed (fl : Nat) (live : List Tbl) (T : Word → Tbl) (cur : Rows) (hl : cur.length = fl)
    (hsat : stepAll fl live cur = cur) (ws : List Word) : ∀ (f s k d : Nat), (∀ w ∈ ws, T w ∈ live) →
      (cur.at f).testBit s = true → f + k < fl → Path T s ws k d → (cur.at (f + k)).testBit d = true := by
  induction ws with
  | nil => intro f s k d _ hb _ hp; cases hp; simpa using hb
  | cons w ws ih =>
    intro f s k d hw hb hk hp
    cases hp with
    | @cons _ m _ _ _ df k' h1 h2 =>
      have hm : (cur.at (f + df)).testBit m = true := by
        rw [← hsat, (stepAll_spec fl live cur hl).2]
        exact Or.inr ⟨T w, hw w (by simp), f, df, s, rfl, by omega, hb, h1⟩
      rw [show f + (df + k') = f + df + k' by omega]
      exact ih _ _ _ _ (fun x hx => hw x (by simp [hx])) hm (by omega) h2

theorem saturate_path (fl : Nat) (live : List Tbl) (T : Word → Tbl) (K : Nat) :
    ∀ (cur : Rows), cur.length = fl → ∀ (ws : List Word) (f s k d : Nat), ws.length ≤ K → (∀ w ∈ ws, T w ∈ live) →
      (cur.at f).testBit s = true → f + k < fl → Path T s ws k d →
      ((saturate fl live K cur).at (f + k)).testBit d = true := by
  induction K with
  | zero =>
    intro cur _ ws f s k d hlen _ hb _ hp
    have : ws = [] := List.length_eq_zero_iff.1 (by omega)
    subst this
    cases hp
    simpa [saturate] using hb
  | succ K ih =>
    intro cur hl ws f s k d hlen hw hb hk hp
    rw [saturate]
    by_cases hsat : stepAll fl live cur = cur
    · rw [if_pos hsat]
      exact path_closed fl live T cur hl hsat ws f s k d hw hb hk hp
    · rw [if_neg hsat]
      have hst := stepAll_spec fl live cur hl
      cases hp with
      | nil => exact ih _ hst.1 [] f s 0 s (by simp) (by simp) ((hst.2 _ _).2 (Or.inl hb)) hk (Path.nil s)
      | @cons _ m _ w ws df k' h1 h2 =>
        have hm : ((stepAll fl live cur).at (f + df)).testBit m = true :=
          (hst.2 _ _).2 (Or.inr ⟨T w, hw w (by simp), f, df, s, rfl, by omega, hb, h1⟩)
        rw [show f + (df + k') = f + df + k' by omega]
        exact ih _ hst.1 ws (f + df) m k' d (by simpa using hlen) (fun x hx => hw x (by simp [hx])) hm (by omega) h2

theorem candidateLoop_path (fl n : Nat) (live : List Tbl) (T : Word → Tbl) (K : Nat) :
    ∀ (cur : Rows), cur.length = fl → ∀ (ws : List Word) (f s k : Nat), ws.length ≤ K → (∀ w ∈ ws, T w ∈ live) →
      (cur.at f).testBit s = true → f + k < fl → Path T s ws k (n - 1) →
      candidateLoop fl n live (K + 1) cur = true := by
  have now : ∀ (cur : Rows) (g : Nat), g < fl → (cur.at g).testBit (n - 1) = true →
      ((List.range fl).any fun f => (cur.at f).testBit (n - 1)) = true := by
    intro cur g hg hb
    rw [List.any_eq_true]
    exact ⟨g, List.mem_range.2 hg, hb⟩
  induction K with
  | zero =>
    intro cur _ ws f s k hlen _ hb hk hp
    have : ws = [] := List.length_eq_zero_iff.1 (by omega)
    subst this
    cases hp
    rw [candidateLoop, now cur f (by omega) hb]; rfl
  | succ K ih =>
    intro cur hl ws f s k hlen hw hb hk hp
    rw [candidateLoop, Bool.or_eq_true]
    by_cases hsat : stepAll fl live cur = cur
    · exact Or.inl (now cur _ hk (path_closed fl live T cur hl hsat ws f s k _ hw hb hk hp))
    · have hst := stepAll_spec fl live cur hl
      cases hp with
      | nil => exact Or.inl (now cur f (by omega) hb)
      | @cons _ m _ w ws df k' h1 h2 =>
        right
        simp only [if_neg hsat]
        have hm : ((stepAll fl live cur).at (f + df)).testBit m = true :=
          (hst.2 _ _).2 (Or.inr ⟨T w, hw w (by simp), f, df, s, rfl, by omega, hb, h1⟩)
        exact ih _ hst.1 ws (f + df) m k' (by simpa using hlen) (fun x hx => hw x (by simp [hx])) hm (by omega) h2

theorem unionRows_mem (fl : Nat) (r : Rows) (d : Nat) :
    (unionRows fl r).testBit d = true ↔ ∃ f, f < fl ∧ (r.at f).testBit d = true := by
  have := testBit_foldl_or (List.range fl) (fun _ => true) (fun f => r.at f) 0 d
  simp only [if_true, Nat.zero_testBit, Bool.false_eq_true, false_or, true_and, List.mem_range] at this
  exact this

theorem candidates_mem (fl n : Nat) (live : List Tbl) (D s : Nat) :
    (candidates fl n live D).testBit s = true ↔
      s < n ∧ candidateLoop fl n live (D + 1) (rowsOf fl (2 ^ s)) = true := by
  unfold candidates
  rw [testBit_foldl_or (List.range n) (fun src => candidateLoop fl n live (D + 1) (rowsOf fl (2 ^ src)))
    (fun src => 2 ^ src) 0 s]
  simp only [Nat.zero_testBit, Bool.false_eq_true, false_or, List.mem_range, Nat.testBit_two_pow, decide_eq_true_eq]
  constructor
  · rintro ⟨x, h1, h2, rfl⟩; exact ⟨h1, h2⟩
  · rintro ⟨h1, h2⟩; exact ⟨s, h1, h2, rfl⟩

/-- Every state on an accepting path is kept. -/
theorem alive_on_path (fl n start D : Nat) (live : List Tbl) (T : Word → Tbl) (pre post : List Word) (s m k1 k2 : Nat)
    (hm : m < n) (hT : ∀ w ∈ pre ++ post, T w ∈ live) (hlen : pre.length + post.length ≤ D)
    (hs : start.testBit s = true) (hk : k1 + k2 < fl) (h1 : Path T s pre k1 m) (h2 : Path T m post k2 (n - 1)) :
    (aliveStates fl n start live D).testBit m = true := by
  rw [aliveStates, Nat.testBit_and, Bool.and_eq_true]
  constructor
  · rw [unionRows_mem]
    refine ⟨k1, by omega, ?_⟩
    have := saturate_path fl live T D (rowsOf fl start) (rowsOf_length _ _) pre 0 s k1 m (by omega)
      (fun w hw => hT w (by simp [hw])) (by rw [rowsOf_at _ _ _ (by omega)]; exact hs) (by omega) h1
    simpa using this
  · rw [candidates_mem]
    refine ⟨hm, candidateLoop_path fl n live T D (rowsOf fl (2 ^ m)) (rowsOf_length _ _) post 0 m k2 (by omega)
      (fun w hw => hT w (by simp [hw])) ?_ (by omega) h2⟩
    rw [rowsOf_at _ _ _ (by omega)]
    simp

/-! ### Redundant states -/

/-- What is true of `redundant_states` while sources below `m` have been handled. -/
structure RedInv (fl n : Nat) (live : List Tbl) (alive m : Nat) (red : List (Option Nat)) : Prop where
  len : red.length = n
  dead : ∀ j, j < n → alive.testBit j = false → red[j]? = some (some j)
  live : ∀ j, j < n → alive.testBit j = true → red[j]? = some none ∨
    ∃ r, r < m ∧ r < j ∧ j < n - 1 ∧ red[j]? = some (some r) ∧ red[r]? = some none ∧ alive.testBit r = true ∧
      sameState fl live alive r j = true

theorem getD_isSome (red : List (Option Nat)) (i : Nat) (hi : i < red.length) :
    (red.getD i none).isSome = false ↔ red[i]? = some none := by
  rw [List.getD, List.getElem?_eq_getElem hi]
  cases h : red[i] <;> simp

theorem RedInv.weaken {fl n live alive m red} (h : RedInv fl n live alive m red) : RedInv fl n live alive (m + 1) red :=
  ⟨h.len, h.dead, fun j hj ha => (h.live j hj ha).imp id fun ⟨r, h1, h2⟩ => ⟨r, by omega, h2⟩⟩

theorem redInner (fl n : Nat) (live : List Tbl) (alive i : Nat) (hi : i < n) (L : List Nat)
    (hL : ∀ j ∈ L, i < j ∧ j < n - 1) :
    ∀ red, RedInv fl n live alive (i + 1) red → red[i]? = some none →
      RedInv fl n live alive (i + 1) (L.foldl (fun red j =>
        if (red.getD j none).isSome then red
        else if sameState fl live alive i j then red.set j (some i) else red) red) := by
  induction L with
  | nil => intro red h _; exact h
  | cons j L ih =>
    intro red h hin
    rw [List.foldl_cons]
    have hj := hL j (by simp)
    have ih' := ih fun x hx => hL x (by simp [hx])
    split
    · exact ih' red h hin
    · next hnone =>
      split
      · next hsame =>
        have hjn : red[j]? = some none := (getD_isSome red j (by rw [h.len]; omega)).1 (by simpa using hnone)
        have hjl : j < red.length := by rw [h.len]; omega
        have hai : alive.testBit i = true := by
          by_contra hc
          rw [h.dead i hi (by simpa using hc)] at hin; simp at hin
        have haj : alive.testBit j = true := by
          by_contra hc
          rw [h.dead j (by omega) (by simpa using hc)] at hjn; simp at hjn
        apply ih'
        · refine ⟨by simpa using h.len, ?_, ?_⟩
          · intro x hx hax
            rw [List.getElem?_set_ne (by rintro rfl; rw [haj] at hax; simp at hax)]
            exact h.dead x hx hax
          · intro x hx hax
            by_cases hxj : x = j
            · subst hxj
              refine Or.inr ⟨i, by omega, hj.1, hj.2, by simp [hjl], ?_, hai, hsame⟩
              rw [List.getElem?_set_ne (by omega)]; exact hin
            · rcases h.live x hx hax with h1 | ⟨r, h1, h2, h3, h4, h5, h6, h7⟩
              · left; rw [List.getElem?_set_ne (by omega)]; exact h1
              · right
                refine ⟨r, h1, h2, h3, ?_, ?_, h6, h7⟩
                · rw [List.getElem?_set_ne (by omega)]; exact h4
                · rw [List.getElem?_set_ne (by omega)]; exact h5
        · rw [List.getElem?_set_ne (by omega)]; exact hin
      · exact ih' red h hin

theorem redundantStates_inv (fl n : Nat) (live : List Tbl) (alive : Nat) :
    RedInv fl n live alive n (redundantStates fl n live alive) := by
  have key : ∀ m, m ≤ n → RedInv fl n live alive m ((List.range m).foldl (fun red i =>
      if (red.getD i none).isSome then red
      else (List.range' (i + 1) (n - 1 - (i + 1))).foldl (fun red j =>
        if (red.getD j none).isSome then red
        else if sameState fl live alive i j then red.set j (some i) else red) red)
    ((List.range n).map fun src => if alive.testBit src then none else some src)) := by
    intro m
    induction m with
    | zero =>
      intro _
      refine ⟨by simp, ?_, ?_⟩
      · intro j hj ha; simp [List.getElem?_range hj, ha]
      · intro j hj ha; left; simp [List.getElem?_range hj, ha]
    | succ m ih =>
      intro hm
      rw [List.range_succ, List.foldl_append]
      simp only [List.foldl_cons, List.foldl_nil]
      generalize hR : List.foldl _ _ (List.range m) = R
      have hinv := ih (by omega)
      rw [hR] at hinv
      split
      · exact hinv.weaken
      · next hn =>
        apply redInner fl n live alive m (by omega) _ _ R hinv.weaken
          ((getD_isSome R m (by rw [hinv.len]; omega)).1 (by simpa using hn))
        intro j hj
        rw [List.mem_range'_1] at hj
        omega
  exact key n (Nat.le_refl _)

/-! ### Renumbering -/

/-- The new number of a kept state. -/
def rho (red : List (Option Nat)) (i : Nat) : Nat := (red.take i).countP Option.isNone

theorem newIndex_eq (red : List (Option Nat)) (i x : Nat) :
    newIndex red i = some x ↔ red[i]? = some none ∧ x = rho red i := by
  unfold newIndex rho
  cases h : red[i]? with
  | none => simp
  | some v =>
    cases v with
    | none => simp [eq_comm]
    | some r => simp

theorem rho_succ (red : List (Option Nat)) (i : Nat) (h : red[i]? = some none) : rho red (i + 1) = rho red i + 1 := by
  unfold rho
  rw [List.take_add_one, h]
  simp

theorem rho_mono (red : List (Option Nat)) {i j : Nat} (h : i ≤ j) : rho red i ≤ rho red j := by
  unfold rho
  exact List.Sublist.countP_le (List.take_sublist_take_left h)

theorem rho_inj (red : List (Option Nat)) {i j : Nat} (hi : red[i]? = some none) (hj : red[j]? = some none)
    (h : rho red i = rho red j) : i = j := by
  rcases Nat.lt_trichotomy i j with hlt | heq | hgt
  · have := rho_mono red (show i + 1 ≤ j from hlt)
    rw [rho_succ red i hi] at this; omega
  · exact heq
  · have := rho_mono red (show j + 1 ≤ i from hgt)
    rw [rho_succ red j hj] at this; omega

theorem rho_lt (red : List (Option Nat)) {i : Nat} (hi : red[i]? = some none) : rho red i < red.countP Option.isNone := by
  have hl := (List.getElem?_eq_some_iff.1 hi).1
  have := rho_mono red (show i + 1 ≤ red.length from hl)
  rw [rho_succ red i hi] at this
  have h2 : rho red red.length = red.countP Option.isNone := by simp [rho]
  omega

theorem rho_last (red : List (Option Nat)) (n : Nat) (hn : red.length = n) (h : red[n - 1]? = some none) (hp : 0 < n) :
    rho red (n - 1) = red.countP Option.isNone - 1 := by
  have := rho_succ red (n - 1) h
  rw [show n - 1 + 1 = red.length by omega] at this
  have h2 : rho red red.length = red.countP Option.isNone := by simp [rho]
  omega

theorem remapSet_mem (red : List (Option Nat)) (s x : Nat) :
    (remapSet red s).testBit x = true ↔ ∃ d, s.testBit d = true ∧ red[d]? = some none ∧ x = rho red d := by
  unfold remapSet
  have key : ∀ (L : List Nat) (a : Nat), (L.foldl (fun acc d => match newIndex red d with
      | some d' => acc ||| 2 ^ d' | none => acc) a).testBit x = true ↔
      a.testBit x = true ∨ ∃ d ∈ L, red[d]? = some none ∧ x = rho red d := by
    intro L
    induction L with
    | nil => simp
    | cons d L ih =>
      intro a
      rw [List.foldl_cons, ih]
      cases hn : newIndex red d with
      | none =>
        constructor
        · rintro (h | ⟨y, h1, h2⟩)
          · exact Or.inl h
          · exact Or.inr ⟨y, by simp [h1], h2⟩
        · rintro (h | ⟨y, h1, h2⟩)
          · exact Or.inl h
          · rcases List.mem_cons.1 h1 with rfl | h1
            · rw [(newIndex_eq red y x).2 h2] at hn; simp at hn
            · exact Or.inr ⟨y, h1, h2⟩
      | some d' =>
        have hd := (newIndex_eq red d d').1 hn
        simp only [Nat.testBit_or, Bool.or_eq_true, Nat.testBit_two_pow, decide_eq_true_eq]
        constructor
        · rintro ((h | h) | ⟨y, h1, h2⟩)
          · exact Or.inl h
          · exact Or.inr ⟨d, by simp, hd.1, by omega⟩
          · exact Or.inr ⟨y, by simp [h1], h2⟩
        · rintro (h | ⟨y, h1, h2⟩)
          · exact Or.inl (Or.inl h)
          · rcases List.mem_cons.1 h1 with rfl | h1
            · exact Or.inl (Or.inr (by omega))
            · exact Or.inr ⟨y, h1, h2⟩
  refine (key (ones s) 0).trans ?_
  simp only [Nat.zero_testBit, Bool.false_eq_true, false_or, mem_ones]

theorem tbl_row_modify (t : Tbl) (i x : Nat) (f : Rows → Rows) (hi : i < t.length) :
    Tbl.row (t.modify i f) x = if x = i then f (t.row x) else t.row x := by
  unfold Tbl.row List.getD
  rw [List.getElem?_modify]
  by_cases h : x = i
  · subst h
    simp [List.getElem?_eq_getElem hi]
  · have h' : ¬ i = x := fun hc => h hc.symm
    rw [if_neg h]
    simp [h']

theorem emptyTbl_row_at (n fl s f : Nat) : Rows.at (Tbl.row (emptyTbl n fl) s) f = 0 := by
  unfold Tbl.row List.getD emptyTbl
  rw [List.getElem?_replicate]
  split
  · exact at_replicate_zero _ _
  · simp [Rows.at]

theorem map_range_at (fl f : Nat) (g : Nat → Nat) : Rows.at ((List.range fl).map g) f = if f < fl then g f else 0 := by
  unfold Rows.at List.getD
  by_cases h : f < fl
  · simp [h]
  · rw [List.getElem?_eq_none (by simpa using h)]; simp [h]

theorem remapTbl_mem (red : List (Option Nat)) (fl n newLen : Nat) (t : Tbl)
    (hs : ∀ src x, src < n → newSource red src = some x → x < newLen) (x f y : Nat) :
    (((remapTbl red fl n newLen t).row x).at f).testBit y = true ↔
      f < fl ∧ ∃ src, src < n ∧ newSource red src = some x ∧ ∃ d, ((t.row src).at f).testBit d = true ∧
        red[d]? = some none ∧ y = rho red d := by
  unfold remapTbl
  have key : ∀ (L : List Nat), (∀ src ∈ L, src < n) → ∀ acc : Tbl, acc.length = newLen →
      (∀ x f, ¬ f < fl → (acc.row x).at f = 0) →
      ((((L.foldl (fun acc src =>
      match newSource red src with
      | none => acc
      | some s' => acc.modify s' fun row =>
          (List.range fl).map fun f => row.at f ||| remapSet red ((t.row src).at f)) acc).row x).at f).testBit y = true ↔
        ((acc.row x).at f).testBit y = true ∨ (f < fl ∧ ∃ src ∈ L, newSource red src = some x ∧
          ∃ d, ((t.row src).at f).testBit d = true ∧ red[d]? = some none ∧ y = rho red d)) := by
    intro L
    induction L with
    | nil => simp
    | cons src L ih =>
      intro hL acc hl hz
      rw [List.foldl_cons]
      cases hn : newSource red src with
      | none =>
        simp only
        rw [ih (fun z hz => hL z (by simp [hz])) acc hl hz]
        constructor
        · rintro (h | ⟨hf, z, h1, h2⟩)
          · exact Or.inl h
          · exact Or.inr ⟨hf, z, by simp [h1], h2⟩
        · rintro (h | ⟨hf, z, h1, h2⟩)
          · exact Or.inl h
          · rcases List.mem_cons.1 h1 with rfl | h1
            · rw [hn] at h2; simp at h2
            · exact Or.inr ⟨hf, z, h1, h2⟩
      | some s' =>
        have hs' : s' < acc.length := by rw [hl]; exact hs src s' (hL src (by simp)) hn
        simp only
        rw [ih (fun z hz => hL z (by simp [hz])) _ (by simpa using hl) ?_]
        · rw [tbl_row_modify _ _ _ _ hs']
          by_cases hx : x = s'
          · subst hx
            rw [if_pos rfl, map_range_at]
            constructor
            · rintro (h | ⟨hf, z, h1, h2⟩)
              · split at h
                · next hf =>
                  rw [Nat.testBit_or, Bool.or_eq_true, remapSet_mem] at h
                  rcases h with h | h
                  · exact Or.inl h
                  · exact Or.inr ⟨hf, src, by simp, hn, h⟩
                · simp at h
              · exact Or.inr ⟨hf, z, by simp [h1], h2⟩
            · rintro (h | ⟨hf, z, h1, h2⟩)
              · left
                by_cases hf : f < fl
                · rw [if_pos hf, Nat.testBit_or, h]; rfl
                · rw [hz x f hf] at h; simp at h
              · rcases List.mem_cons.1 h1 with rfl | h1
                · left
                  rw [if_pos hf, Nat.testBit_or, Bool.or_eq_true, remapSet_mem]
                  exact Or.inr h2.2
                · exact Or.inr ⟨hf, z, h1, h2⟩
          · rw [if_neg hx]
            constructor
            · rintro (h | ⟨hf, z, h1, h2⟩)
              · exact Or.inl h
              · exact Or.inr ⟨hf, z, by simp [h1], h2⟩
            · rintro (h | ⟨hf, z, h1, h2⟩)
              · exact Or.inl h
              · rcases List.mem_cons.1 h1 with rfl | h1
                · rw [hn] at h2; exact absurd (by simpa using h2.1.symm) hx
                · exact Or.inr ⟨hf, z, h1, h2⟩
        · intro x f hf
          rw [tbl_row_modify _ _ _ _ hs']
          split
          · rw [map_range_at, if_neg hf]
          · exact hz x f hf
  refine (key (List.range n) (fun src h => List.mem_range.1 h) (emptyTbl newLen fl) (by simp [emptyTbl])
    (fun x f _ => emptyTbl_row_at _ _ _ _)).trans ?_
  rw [emptyTbl_row_at]
  simp only [Nat.zero_testBit, Bool.false_eq_true, false_or, List.mem_range]

theorem remapTbl_shape (red : List (Option Nat)) (fl n newLen : Nat) (t : Tbl) :
    ShapedTbl newLen fl (remapTbl red fl n newLen t) := by
  unfold remapTbl
  have key : ∀ (L : List Nat) (acc : Tbl), ShapedTbl newLen fl acc → ShapedTbl newLen fl (L.foldl (fun acc src =>
      match newSource red src with
      | none => acc
      | some s' => acc.modify s' fun row =>
          (List.range fl).map fun f => row.at f ||| remapSet red ((t.row src).at f)) acc) := by
    intro L
    induction L with
    | nil => intro acc h; exact h
    | cons src L ih =>
      intro acc h
      rw [List.foldl_cons]
      apply ih
      cases newSource red src with
      | none => exact h
      | some s' =>
        refine ⟨by simpa using h.1, fun r hr => ?_⟩
        obtain ⟨j, hj⟩ := List.mem_iff_getElem?.1 hr
        rw [List.getElem?_modify] at hj
        cases hc : acc[j]? with
        | none => rw [hc] at hj; simp at hj
        | some q =>
          rw [hc] at hj
          simp only [Option.map_eq_map, Option.map_some, Option.some.injEq] at hj
          split at hj
          · rw [← hj]; simp
          · rw [← hj]; exact h.2 q (List.mem_of_getElem? hc)
  exact key _ _ ⟨by simp [emptyTbl], fun r hr => by rw [List.eq_of_mem_replicate hr]; simp⟩

/-! ### Which states are kept: the other direction -/

theorem saturate_back (fl : Nat) (live : List Tbl) (K : Nat) : ∀ (cur : Rows), cur.length = fl → ∀ (P : Nat → Prop),
    (∀ f s, (cur.at f).testBit s = true → P s) →
    (∀ t ∈ live, ∀ s f d, P s → ((t.row s).at f).testBit d = true → P d) →
    ∀ f s, ((saturate fl live K cur).at f).testBit s = true → P s := by
  induction K with
  | zero => intro cur _ P h _ f s hb; exact h f s hb
  | succ K ih =>
    intro cur hl P h hstep f s hb
    rw [saturate] at hb
    split at hb
    · exact h f s hb
    · have hst := stepAll_spec fl live cur hl
      refine ih _ hst.1 P ?_ hstep f s hb
      intro g d hb
      rcases (hst.2 g d).1 hb with hb | ⟨t, ht, f, df, s, _, _, h1, h2⟩
      · exact h g d hb
      · exact hstep t ht s df d (h f s h1) h2

theorem candidateLoop_back (fl n : Nat) (live : List Tbl) (K : Nat) : ∀ (cur : Rows), cur.length = fl → ∀ (P : Nat → Prop),
    (∀ f s, (cur.at f).testBit s = true → P s) →
    (∀ t ∈ live, ∀ s f d, P s → ((t.row s).at f).testBit d = true → P d) →
    candidateLoop fl n live K cur = true → P (n - 1) := by
  induction K with
  | zero => intro cur _ P h _ hb; simp [candidateLoop] at hb
  | succ K ih =>
    intro cur hl P h hstep hb
    rw [candidateLoop, Bool.or_eq_true] at hb
    have hst := stepAll_spec fl live cur hl
    rcases hb with hb | hb
    · rw [List.any_eq_true] at hb
      obtain ⟨f, _, hb⟩ := hb
      exact h f _ hb
    · simp only at hb
      split at hb
      · simp at hb
      · refine ih _ hst.1 P ?_ hstep hb
        intro g d hb
        rcases (hst.2 g d).1 hb with hb | ⟨t, ht, f, df, s, _, _, h1, h2⟩
        · exact h g d hb
        · exact hstep t ht s df d (h f s h1) h2

/-- A kept state can be reached from the start, and the success state from it, by words of live classes. -/
theorem alive_back {fl n start D : Nat} {live : List Tbl} {T : Word → Tbl} {al : List Word} (hfl : 0 < fl)
    (hT : ∀ t ∈ live, ∃ w ∈ al, T w = t) {m : Nat} (h : (aliveStates fl n start live D).testBit m = true) :
    (∃ s us k, start.testBit s = true ∧ (∀ w ∈ us, w ∈ al) ∧ Path T s us k m) ∧
    ∃ vs k, (∀ w ∈ vs, w ∈ al) ∧ Path T m vs k (n - 1) := by
  rw [aliveStates, Nat.testBit_and, Bool.and_eq_true, unionRows_mem, candidates_mem] at h
  obtain ⟨⟨f, _, h1⟩, _, h2⟩ := h
  have ext : ∀ (s0 : Nat) t, t ∈ live → ∀ s f d, (∃ us k, (∀ w ∈ us, w ∈ al) ∧ Path T s0 us k s) →
      ((t.row s).at f).testBit d = true → ∃ us k, (∀ w ∈ us, w ∈ al) ∧ Path T s0 us k d := by
    rintro s0 t ht s f d ⟨us, k, h3, h4⟩ hb
    obtain ⟨w, hw, rfl⟩ := hT t ht
    refine ⟨us ++ [w], k + f, ?_, ?_⟩
    · intro v hv
      rcases List.mem_append.1 hv with hv | hv
      · exact h3 v hv
      · rw [List.mem_singleton.1 hv]; exact hw
    · rw [path_append]
      exact ⟨s, k, f, h4, by simpa using Path.cons hb (Path.nil d), rfl⟩
  constructor
  · refine saturate_back fl live D (rowsOf fl start) (rowsOf_length _ _)
      (fun m => ∃ s us k, start.testBit s = true ∧ (∀ w ∈ us, w ∈ al) ∧ Path T s us k m) ?_ ?_ f m h1
    · intro f s hb
      rw [rowsOf_at _ _ _ hfl] at hb
      split at hb
      · exact ⟨s, [], 0, hb, by simp, Path.nil s⟩
      · simp at hb
    · rintro t ht s f d ⟨s0, us, k, h3, h4, h5⟩ hb
      obtain ⟨us', k', h6, h7⟩ := ext s0 t ht s f d ⟨us, k, h4, h5⟩ hb
      exact ⟨s0, us', k', h3, h6, h7⟩
  · refine candidateLoop_back fl n live (D + 1) (rowsOf fl (2 ^ m)) (rowsOf_length _ _)
      (fun d => ∃ vs k, (∀ w ∈ vs, w ∈ al) ∧ Path T m vs k d) ?_ (fun t ht s f d => ext m t ht s f d) h2
    intro f s hb
    rw [rowsOf_at _ _ _ hfl] at hb
    split at hb
    · have : s = m := by simpa [Nat.testBit_two_pow, eq_comm] using hb
      subst this
      exact ⟨[], 0, by simp, Path.nil _⟩
    · simp at hb

theorem sameState_spec {fl : Nat} {live : List Tbl} {alive i j : Nat} (h : sameState fl live alive i j = true)
    {t : Tbl} (ht : t ∈ live) {f : Nat} (hf : f < fl) {x : Nat} (hx : alive.testBit x = true) :
    ((t.row i).at f).testBit x = ((t.row j).at f).testBit x ∧
    ((t.row x).at f).testBit i = ((t.row x).at f).testBit j := by
  unfold sameState at h
  rw [List.all_eq_true] at h
  have h1 := h f (List.mem_range.2 hf)
  rw [List.all_eq_true] at h1
  have h2 := h1 t ht
  rw [Bool.and_eq_true, List.all_eq_true, List.all_eq_true] at h2
  exact ⟨by simpa using h2.1 x ((mem_ones _ _).2 hx), by simpa using h2.2 x ((mem_ones _ _).2 hx)⟩

end Noodle
