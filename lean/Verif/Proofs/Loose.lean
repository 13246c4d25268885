import Verif.Proofs.Chain
/-
What a chain of word matchers reports does not depend on whether it prepares for phrases, nor on whether it did so for
the words before: the rows of source 0 are right in either mode.
-/
namespace Noodle
open Spec
set_option autoImplicit false

/-- What is true of a word matcher whose words were processed in either mode. -/
structure Loose (e : Expr) (maxLen : Nat) (m : WM) : Prop where
  tlen : m.tables.length = maxLen
  clen : m.tableChars.length < maxLen
  shape : ∀ t ∈ m.tables, Shape e t
  cache : m.tableChars ≠ [] → ∀ i t, i ≤ m.tableChars.length → m.tables[i]? = some t →
    t.row 0 = wordRow e 0 (m.tableChars.take i)
  pmExpr : m.pm.expr = e
  pmLen : m.pm.statesLen = e.len
  pmFuzz : m.pm.fuzzLimit = e.fuzz + 1

theorem Loose.new (e : Expr) (maxLen : Nat) (h : 0 < maxLen) : Loose e maxLen (WM.new e maxLen) :=
  have w := WMInv.new e true maxLen h
  ⟨w.tlen, w.clen, w.shape, fun hn i t hi ht => w.cache hn i t hi ht 0 (by simp [nStart]), rfl, rfl, rfl⟩

/-- One word, in either mode: the verdict is the same. -/
theorem Loose.word {e : Expr} (he : 0 < e.len) {maxLen : Nat} {m : WM} (hinv : Loose e maxLen m) (single : Bool)
    (w : Word) (hw : w.chars.length < maxLen) :
    ∃ m' a, m.word single w = .ok (m', matchB e w) ∧ Loose e maxLen m' ∧ m'.wordIndex = m.wordIndex + 1 ∧
      m'.alive = m.alive ++ (if a then [w] else []) ∧ (matchB e w = true → a = true) := by
  obtain ⟨htlen, hclen, hshape, hcache, hexpr, hlen, hfuzz⟩ := hinv
  have hs0 : 0 < nStart e single := nStart_pos e he single
  obtain ⟨hp1, hp2, hp3⟩ := commonPrefix_spec w.chars m.tableChars
  generalize hpe : commonPrefix w.chars m.tableChars = p at hp1 hp2 hp3
  generalize hte : (if p = 0 then m.tables.set 0 (initTbl e e.len (e.fuzz + 1)) else m.tables) = tabs
  have htabs_len : tabs.length = maxLen := by rw [← hte]; split <;> simp [htlen]
  have htabs_shape : ∀ t ∈ tabs, Shape e t := by
    intro t ht
    rw [← hte] at ht
    split at ht
    · rcases List.mem_or_eq_of_mem_set ht with ht | rfl
      · exact hshape t ht
      · exact initTbl_shape e
    · exact hshape t ht
  have htabs_cache : ∀ i t, i ≤ p → tabs[i]? = some t → t.row 0 = wordRow e 0 (w.chars.take i) := by
    intro i t hi ht
    rw [← hte] at ht
    split at ht
    · next h0 =>
      have : i = 0 := by omega
      subst this
      rw [List.getElem?_set_self (by omega)] at ht
      simp only [Option.some.injEq] at ht; subst ht
      exact initTbl_row e 0 he
    · next h0 =>
      have hne : m.tableChars ≠ [] := by rintro h; rw [h] at hp2; simp at hp2; exact h0 hp2
      rw [hcache hne i t (by omega) ht]
      have : w.chars.take i = m.tableChars.take i := by
        have := congrArg (List.take i) hp3
        simpa [List.take_take, Nat.min_eq_left hi] using this
      rw [this]
  have hplt : p < tabs.length := by omega
  have hcurE : tabs[p]? = some tabs[p] := List.getElem?_eq_getElem hplt
  have hcurS : Shape e tabs[p] := htabs_shape _ (List.getElem_mem hplt)
  have hrestS : ∀ t ∈ tabs.drop (p + 1), Shape e t := fun t ht => htabs_shape t (List.mem_of_mem_drop ht)
  obtain ⟨n, rest', h1, h2, h3, h4, h5, h6, h7⟩ := fillTable_spec e he single (w.chars.drop p) tabs[p]
    (tabs.drop (p + 1)) (by simp; omega) hcurS hrestS
  have hrow : ∀ j, rowsAfter e ((w.chars.drop p).take j) ((tabs[p]).row 0) = wordRow e 0 (w.chars.take (p + j)) := by
    intro j
    rw [htabs_cache p _ (Nat.le_refl _) hcurE, wordRow, wordRow, ← rowsAfter_append, List.take_add]
  simp only [List.length_drop] at h4
  have hn : p + n ≤ w.chars.length := by omega
  generalize htt : tabs.take (p + 1) ++ rest' = tt
  have htt_len : tt.length = maxLen := by rw [← htt]; simp [h2]; omega
  have htt_shape : ∀ t ∈ tt, Shape e t := by
    intro t ht
    rw [← htt] at ht
    rcases List.mem_append.1 ht with ht | ht
    · exact htabs_shape t (List.mem_of_mem_take ht)
    · exact h3 t ht
  have htt_get : ∀ j, tt[p + j]? = (tabs[p] :: rest')[j]? := by
    intro j
    rw [← htt]
    cases j with
    | zero =>
      rw [List.getElem?_append_left (by simp; omega)]
      simp [hcurE]
    | succ j =>
      rw [List.getElem?_append_right (by simp; omega)]
      simp only [List.length_take, List.getElem?_cons_succ]
      congr 1; omega
  have htt_cache : ∀ i t, i ≤ p + n → tt[i]? = some t → t.row 0 = wordRow e 0 (w.chars.take i) := by
    intro i t hi ht
    by_cases hip : i < p
    · have : tt[i]? = tabs[i]? := by
        rw [← htt, List.getElem?_append_left (by simp; omega), List.getElem?_take, if_pos (by omega)]
      rw [this] at ht
      exact htabs_cache i t (by omega) ht
    · obtain ⟨j, rfl⟩ : ∃ j, i = p + j := ⟨i - p, by omega⟩
      rw [htt_get] at ht
      rw [h5 j t (by omega) ht 0 hs0, hrow j]
  have hrun : m.word single w =
      (if p + n < w.chars.length then
        .ok ({ m with wordIndex := m.wordIndex + 1, tables := tt, tableChars := w.chars.take (p + n) }, false)
      else match tt[w.chars.length]? with
        | none => .error .index
        | some t => .ok ({ m with
            wordIndex := m.wordIndex + 1, tables := tt, tableChars := w.chars.take (p + n),
            alive := m.alive ++ [w], pm := m.pm.insertWord w t }, tblMatches m.pm t)) := by
    unfold WM.word
    simp only [hpe, hexpr, hlen, hfuzz, hte, hcurE, h1, htt]
    rfl
  have hbase_cache : (w.chars.take (p + n)) ≠ [] → ∀ i t, i ≤ (w.chars.take (p + n)).length → tt[i]? = some t →
      t.row 0 = wordRow e 0 ((w.chars.take (p + n)).take i) := by
    intro _ i t hi ht
    have hi' : i ≤ p + n := by simp at hi; omega
    rw [htt_cache i t hi' ht, List.take_take, Nat.min_eq_left hi']
  by_cases hpl : p + n < w.chars.length
  · obtain ⟨c, hc, hig, hz⟩ := h7 (by simp; omega)
    have hno : matchB e w = false := by
      rw [← Bool.not_eq_true, matchB_iff, matches_iff_row]
      have hsplit : w.chars = w.chars.take (p + n) ++ w.chars.drop (p + n) := (List.take_append_drop _ _).symm
      rw [hsplit, wordRow, rowsAfter_append]
      refine rowsAfter_empty e _ (wordRow e 0 (w.chars.take (p + n))) (wordRow_length _ _ _) (fun f hf => ?_) _ _
        (Nat.le_refl _)
      rw [← hrow n]
      exact hz 0 f hs0 hf
    rw [hrun, if_pos hpl, hno]
    exact ⟨_, false, rfl, ⟨htt_len, by simp; omega, htt_shape, hbase_cache, hexpr, hlen, hfuzz⟩, rfl, by simp, by simp⟩
  · have hlt : w.chars.length < tt.length := by omega
    have hgt : tt[w.chars.length]? = some tt[w.chars.length] := List.getElem?_eq_getElem hlt
    have hr0 : (tt[w.chars.length]).row 0 = wordRow e 0 w.chars := by
      rw [htt_cache _ _ (by omega) hgt, List.take_of_length_le (Nat.le_refl _)]
    have hv : tblMatches m.pm tt[w.chars.length] = matchB e w := by
      unfold tblMatches matchB
      rw [hfuzz, hlen, hr0]
    rw [hrun, if_neg hpl, hgt]
    simp only [hv]
    exact ⟨_, true, rfl, ⟨htt_len, by simp; omega, htt_shape, hbase_cache, hexpr, hlen, hfuzz⟩, rfl, rfl, fun _ => rfl⟩

/-- The words a matcher may keep of `ws`: some of them; the last one if it matches. -/
def LKept (e : Expr) (ws X : List Word) : Prop :=
  (∀ x ∈ X, x ∈ ws) ∧ ∀ pre w, ws = pre ++ [w] → matchB e w = true → ∃ C, X = C ++ [w]

theorem LKept.nil (e : Expr) : LKept e [] [] := ⟨by simp, fun pre w h => by simp at h⟩

theorem LKept.append {e : Expr} {A B X Y : List Word} (h : LKept e A X) (h' : LKept e B Y) : LKept e (A ++ B) (X ++ Y) := by
  refine ⟨fun x hx => ?_, fun pre w hw hm => ?_⟩
  · rcases List.mem_append.1 hx with hx | hx
    · exact List.mem_append.2 (.inl (h.1 x hx))
    · exact List.mem_append.2 (.inr (h'.1 x hx))
  · rcases List.eq_nil_or_concat B with rfl | ⟨B', b, rfl⟩
    · have : Y = [] := List.eq_nil_iff_forall_not_mem.2 fun y hy => by simpa using h'.1 y hy
      subst this
      rw [List.append_nil] at hw ⊢
      exact h.2 pre w hw hm
    · rw [List.concat_eq_append] at hw h'
      rw [← List.append_assoc] at hw
      have hb : b = w := by
        have := congrArg List.getLast? hw
        simpa using this
      subst hb
      obtain ⟨C, hC⟩ := h'.2 B' b rfl hm
      exact ⟨X ++ C, by rw [hC, List.append_assoc]⟩

/-- The clock is read every 256 words. -/
def tick (clk : Clock) (cnt : Nat) : Bool × Clock := if cnt % 256 = 0 then clk.read else (false, clk)

/-- How far one call looks, what it reports and when. -/
def seekW (e : Expr) (clk : Clock) (cnt : Nat) : List Word → Nat × Option Word × Clock
  | [] => (0, none, clk)
  | w :: ws =>
    if (tick clk cnt).1 then
      (0, none, (tick clk cnt).2)
    else if matchB e w then (1, some w, (tick clk cnt).2)
    else ((seekW e (tick clk cnt).2 (cnt + 1) ws).1 + 1,
      (seekW e (tick clk cnt).2 (cnt + 1) ws).2)

theorem seekW_le (e : Expr) (ws : List Word) : ∀ (clk : Clock) (cnt : Nat), (seekW e clk cnt ws).1 ≤ ws.length := by
  induction ws with
  | nil => intro clk cnt; exact Nat.le_refl _
  | cons w ws ih =>
    intro clk cnt
    unfold seekW
    split
    · exact Nat.zero_le _
    · split
      · simp
      · have := ih (tick clk cnt).2 (cnt + 1)
        simp only [List.length_cons]; omega

theorem seekW_some (e : Expr) (ws : List Word) : ∀ (clk : Clock) (cnt : Nat) (x : Word),
    (seekW e clk cnt ws).2.1 = some x → ∃ pre, ws.take (seekW e clk cnt ws).1 = pre ++ [x] ∧
      pre.filter (matchB e) = [] ∧ matchB e x = true := by
  induction ws with
  | nil => intro clk cnt x h; simp [seekW] at h
  | cons w ws ih =>
    intro clk cnt x h
    unfold seekW at h ⊢
    split at h
    · simp at h
    · rename_i h0
      rw [if_neg h0]
      split at h
      · rename_i h1
        simp only [Option.some.injEq] at h
        subst h
        rw [if_pos h1]
        exact ⟨[], by simp, rfl, h1⟩
      · rename_i h1
        rw [if_neg h1]
        obtain ⟨pre, a, b, c⟩ := ih _ _ x h
        exact ⟨w :: pre, by simp [a], by simp [h1, b], c⟩

theorem seekW_none (e : Expr) (ws : List Word) : ∀ (cnt : Nat), (seekW e none cnt ws).2.1 = none →
    (seekW e none cnt ws).1 = ws.length ∧ ws.filter (matchB e) = [] := by
  induction ws with
  | nil => intro cnt h; exact ⟨rfl, rfl⟩
  | cons w ws ih =>
    intro cnt h
    have hr : tick none cnt = (false, (none : Clock)) := by
      unfold tick; split <;> rfl
    unfold seekW at h ⊢
    rw [hr] at h ⊢
    simp only [Bool.false_eq_true, if_false] at h ⊢
    split at h
    · simp at h
    · rename_i h1
      rw [if_neg h1]
      obtain ⟨a, b⟩ := ih _ h
      exact ⟨by simp [a], by simp [h1, b]⟩

/-- One call of a matcher, in either mode. -/
theorem Loose.loop {e : Expr} (he : 0 < e.len) {maxLen : Nat} (single : Bool) (ws : List Word) :
    ∀ {m : WM} (clk : Clock) (cnt : Nat), Loose e maxLen m → (∀ w ∈ ws, w.chars.length < maxLen) →
      ∃ m' X, m.loop single clk cnt ws = .ok (m', (seekW e clk cnt ws).2) ∧ Loose e maxLen m' ∧
        m'.wordIndex = m.wordIndex + (seekW e clk cnt ws).1 ∧ m'.alive = m.alive ++ X ∧
        LKept e (ws.take (seekW e clk cnt ws).1) X := by
  induction ws with
  | nil => intro m clk cnt h _; exact ⟨m, [], rfl, h, rfl, by simp, LKept.nil e⟩
  | cons w ws ih =>
    intro m clk cnt h hw
    unfold WM.loop seekW
    simp only
    rw [show (if cnt % 256 = 0 then clk.read else (false, clk)) = tick clk cnt from rfl]
    generalize tick clk cnt = rd
    by_cases hr : rd.1 = true
    · simp only [if_pos hr]
      exact ⟨m, [], rfl, h, rfl, by simp, LKept.nil e⟩
    · simp only [if_neg hr]
      obtain ⟨m1, a, h1, h2, h3, h4, h5⟩ := h.word he single w (hw w (by simp))
      have hk : LKept e [w] (if a then [w] else []) := by
        refine ⟨fun x hx => by split at hx <;> simp_all, fun pre x hx hm => ?_⟩
        obtain ⟨rfl, hx⟩ : pre = [] ∧ [x] = [w] := by
          cases pre with
          | nil => exact ⟨rfl, hx.symm⟩
          | cons y pre => simp at hx
        injection hx with hx
        subst hx
        rw [h5 hm]
        exact ⟨[], rfl⟩
      rw [h1]
      cases hb : matchB e w with
      | true =>
        simp only [if_true]
        exact ⟨m1, _, rfl, h2, h3, h4, by simpa using hk⟩
      | false =>
        simp only [Bool.false_eq_true, if_false]
        obtain ⟨m', X, g1, g2, g3, g4, g5⟩ := ih rd.2 (cnt + 1) h2 fun x hx => hw x (by simp [hx])
        refine ⟨m', _, g1, g2, by rw [g3, h3]; omega, by rw [g4, h4, List.append_assoc], ?_⟩
        rw [List.take_succ_cons]
        exact hk.append g5

/-- Driving a matcher to the end of its list, in either mode. -/
theorem Loose.iterLast {e : Expr} (he : 0 < e.len) {maxLen : Nat} (single : Bool) (L : List Word)
    (hL : ∀ w ∈ L, w.chars.length < maxLen) (n : Nat) : ∀ {m : WM} (last : Option Word), Loose e maxLen m →
      m.wordIndex ≤ L.length → L.length - m.wordIndex < n →
      ∃ m' X, m.iterLast L single n last =
          .ok (m', ((L.drop m.wordIndex).filter (matchB e)).getLast?.or last) ∧ Loose e maxLen m' ∧
        m'.wordIndex = L.length ∧ m'.alive = m.alive ++ X ∧ LKept e (L.drop m.wordIndex) X := by
  induction n with
  | zero => intro m last h hi hn; omega
  | succ n ih =>
    intro m last h hi hn
    have hlen := seekW_le e (L.drop m.wordIndex) none 0
    obtain ⟨m', X, h1, h2, h3, h4, h5⟩ := h.loop he single (L.drop m.wordIndex) none 0
      fun w hw => hL w (List.mem_of_mem_drop hw)
    simp only [WM.iterLast, WM.next, h1]
    have hs := seekW_some e (L.drop m.wordIndex) none 0
    have hn0 := seekW_none e (L.drop m.wordIndex) 0
    generalize seekW e none 0 (L.drop m.wordIndex) = sk at *
    obtain ⟨k, out, clk'⟩ := sk
    simp only [List.length_drop] at *
    cases out with
    | none =>
      obtain ⟨a, b⟩ := hn0 rfl
      refine ⟨m', X, by rw [b]; rfl, h2, by rw [h3, a]; omega, h4, ?_⟩
      rwa [a, List.take_of_length_le (by simp)] at h5
    | some w =>
      obtain ⟨pre, a, b, c⟩ := hs w rfl
      have hk : 0 < k := by
        rcases Nat.eq_zero_or_pos k with h | h
        · subst h; simp at a
        · exact h
      obtain ⟨m'', Y, g1, g2, g3, g4, g5⟩ := ih (some w) h2 (by omega) (by omega)
      have hdrop : L.drop m'.wordIndex = (L.drop m.wordIndex).drop k := by rw [List.drop_drop, h3]
      have hsplit : L.drop m.wordIndex = (L.drop m.wordIndex).take k ++ L.drop m'.wordIndex := by
        rw [hdrop, List.take_append_drop]
      refine ⟨m'', X ++ Y, ?_, g2, g3, by rw [g4, h4, List.append_assoc], by rw [hsplit]; exact h5.append g5⟩
      simp only [g1]
      congr 2
      have : (L.drop m.wordIndex).filter (matchB e) = [w] ++ (L.drop m'.wordIndex).filter (matchB e) := by
        rw [hsplit, a, List.filter_append, List.filter_append, b]
        simp [c]
      rw [this, List.getLast?_append]
      cases hg : ((L.drop m'.wordIndex).filter (matchB e)).getLast? <;> simp

theorem Loose.drain {e : Expr} (he : 0 < e.len) {maxLen : Nat} (single : Bool) {L : List Word}
    (hL : ∀ w ∈ L, w.chars.length < maxLen) {m : WM} (h : Loose e maxLen m) (hi : m.wordIndex ≤ L.length) :
    ∃ m' X, m.drain L single = .ok (m', ((L.drop m.wordIndex).filter (matchB e)).getLast?) ∧ Loose e maxLen m' ∧
        m'.wordIndex = L.length ∧ m'.alive = m.alive ++ X ∧ LKept e (L.drop m.wordIndex) X := by
  obtain ⟨m', X, h1, h2⟩ := h.iterLast he single L hL (L.length - m.wordIndex + 1) none hi (by omega)
  exact ⟨m', X, by rw [WM.drain, h1]; simp, h2⟩

/-- Every matcher has looked at no more than its predecessor's list, and keeps words that are not too long. -/
def LChain (maxLen : Nat) : List Expr → List WM → List Word → Prop
  | [], [], _ => True
  | e :: es, m :: ms, A => Loose e maxLen m ∧ m.wordIndex ≤ A.length ∧ (∀ w ∈ m.alive, w.chars.length < maxLen) ∧
      LChain maxLen es ms m.alive
  | _, _, _ => False

theorem LChain.mono {maxLen : Nat} {es : List Expr} {ms : List WM} {A B : List Word} (h : LChain maxLen es ms A)
    (hp : A.length ≤ B.length) : LChain maxLen es ms B := by
  cases es with
  | nil => cases ms <;> simp_all [LChain]
  | cons e es =>
    cases ms with
    | nil => simp [LChain] at h
    | cons m ms => exact ⟨h.1, Nat.le_trans h.2.1 hp, h.2.2⟩

theorem lchain_new (maxLen : Nat) (h : 0 < maxLen) (es : List Expr) (A : List Word) :
    LChain maxLen es (es.map fun e => WM.new e maxLen) A := by
  induction es generalizing A with
  | nil => trivial
  | cons e es ih => exact ⟨Loose.new e maxLen h, Nat.zero_le _, by simp [WM.new], ih _⟩

theorem lfeed_any {maxLen : Nat} (single : Bool) {es : List Expr} (hes : ∀ e ∈ es, 0 < e.len) :
    ∀ {ms : List WM} {A : List Word} (w : Word), LChain maxLen es ms A → (∀ x ∈ A, x.chars.length < maxLen) →
      ∃ ms' b, feed single w ms A = .ok (ms', b) ∧ LChain maxLen es ms' A := by
  induction es with
  | nil =>
    intro ms A w h hA
    cases ms with
    | nil => exact ⟨[], true, rfl, trivial⟩
    | cons m ms => simp [LChain] at h
  | cons e es ih =>
    intro ms A w h hA
    cases ms with
    | nil => simp [LChain] at h
    | cons m ms =>
      obtain ⟨hm, hi, hl, hc⟩ := h
      obtain ⟨m', X, h1, h2, h3, h4, h5⟩ := hm.drain (hes e (by simp)) single hA hi
      have hl' : ∀ x ∈ m'.alive, x.chars.length < maxLen := by
        intro x hx
        rw [h4] at hx
        rcases List.mem_append.1 hx with hx | hx
        · exact hl x hx
        · exact hA x (List.mem_of_mem_drop (h5.1 x hx))
      obtain ⟨ms', b, h6, h7⟩ := ih (fun e' he' => hes e' (by simp [he'])) w
        (hc.mono (B := m'.alive) (by rw [h4]; simp)) hl'
      exact ⟨m' :: ms', _, by simp only [feed, h1, h6]; rfl, h2, by omega, hl', h7⟩

/-- The verdict of the rest of the chain on the newly arrived last word, in either mode. -/
theorem lfeed {maxLen : Nat} (single : Bool) {es : List Expr} (hes : ∀ e ∈ es, 0 < e.len) :
    ∀ {ms : List WM} {B : List Word} (w : Word), LChain maxLen es ms B → (∀ x ∈ B ++ [w], x.chars.length < maxLen) →
      ∃ ms', feed single w ms (B ++ [w]) = .ok (ms', es.all fun e => matchB e w) ∧ LChain maxLen es ms' (B ++ [w]) := by
  induction es with
  | nil =>
    intro ms B w h hA
    cases ms with
    | nil => exact ⟨[], rfl, trivial⟩
    | cons m ms => simp [LChain] at h
  | cons e es ih =>
    intro ms B w h hA
    cases ms with
    | nil => simp [LChain] at h
    | cons m ms =>
      obtain ⟨hm, hi, hl, hc⟩ := h
      obtain ⟨m', X, h1, h2, h3, h4, h5⟩ := hm.drain (hes e (by simp)) single hA (by simp; omega)
      have hdrop : (B ++ [w]).drop m.wordIndex = B.drop m.wordIndex ++ [w] := List.drop_append_of_le_length hi
      have hl' : ∀ x ∈ m'.alive, x.chars.length < maxLen := by
        intro x hx
        rw [h4] at hx
        rcases List.mem_append.1 hx with hx | hx
        · exact hl x hx
        · exact hA x (List.mem_of_mem_drop (h5.1 x hx))
      have hlast : decide (((((B ++ [w]).drop m.wordIndex).filter (matchB e)).getLast?) = some w) = matchB e w := by
        rw [hdrop, List.filter_append]
        cases hb : matchB e w with
        | true => simp [hb]
        | false =>
          simp only [List.filter_cons, hb, List.filter_nil, List.append_nil, Bool.false_eq_true, if_false]
          rw [decide_eq_false_iff_not]
          intro hcon
          have := List.mem_of_getLast? hcon
          have := (List.mem_filter.1 this).2
          rw [hb] at this; simp at this
      cases hb : matchB e w with
      | true =>
        obtain ⟨C, hC⟩ := h5.2 _ w hdrop hb
        have hal : m'.alive = m.alive ++ C ++ [w] := by rw [h4, hC, List.append_assoc]
        obtain ⟨ms', h6, h7⟩ := ih (fun e' he' => hes e' (by simp [he'])) w
          (hc.mono (B := m.alive ++ C) (by simp)) (by rw [← hal]; exact hl')
        rw [← hal] at h6 h7
        refine ⟨m' :: ms', ?_, h2, by omega, hl', h7⟩
        simp only [feed, h1, h6, hlast, List.all_cons, hb]
      | false =>
        obtain ⟨ms', b, h6, h7⟩ := lfeed_any single (fun e' he' => hes e' (by simp [he'])) w
          (hc.mono (B := m'.alive) (by rw [h4]; simp)) hl'
        refine ⟨m' :: ms', ?_, h2, by omega, hl', h7⟩
        simp only [feed, h1, h6, hlast, List.all_cons, hb, Bool.false_and]

/-- Two matchers over the same list, prepared in different ways, find the same word. -/
theorem wordLoop_same {maxLen : Nat} {e : Expr} {es : List Expr} (he : 0 < e.len) (hes : ∀ e ∈ es, 0 < e.len)
    {wl : List Word} (hwl : ∀ w ∈ wl, w.chars.length < maxLen) (s s' : Bool) (n : Nat) :
    ∀ {m m' : WM} {ms ms' : List WM} (clk : Clock), LChain maxLen (e :: es) (m :: ms) wl →
      LChain maxLen (e :: es) (m' :: ms') wl → m'.wordIndex = m.wordIndex → wl.length - m.wordIndex < n →
      ∃ m1 ms1 m1' ms1' out clk', wordLoop wl s n m ms clk = .ok (m1, ms1, out, clk') ∧
        wordLoop wl s' n m' ms' clk = .ok (m1', ms1', out, clk') ∧ LChain maxLen (e :: es) (m1 :: ms1) wl ∧
        LChain maxLen (e :: es) (m1' :: ms1') wl ∧ m1'.wordIndex = m1.wordIndex := by
  induction n with
  | zero => intro m m' ms ms' clk _ _ _ hn; omega
  | succ n ih =>
    intro m m' ms ms' clk h h' hidx hn
    obtain ⟨a1, a2, a3, a4⟩ := h
    obtain ⟨b1, b2, b3, b4⟩ := h'
    have hlen := seekW_le e (wl.drop m.wordIndex) clk 0
    have hs := seekW_some e (wl.drop m.wordIndex) clk 0
    have hwd : ∀ w ∈ wl.drop m.wordIndex, w.chars.length < maxLen := fun w hw => hwl w (List.mem_of_mem_drop hw)
    obtain ⟨m1, X, c1, c2, c3, c4, c5⟩ := a1.loop he s (wl.drop m.wordIndex) clk 0 hwd
    obtain ⟨m1', X', d1, d2, d3, d4, d5⟩ := b1.loop he s' (wl.drop m.wordIndex) clk 0 hwd
    simp only [wordLoop, WM.next, hidx, c1, d1]
    generalize seekW e clk 0 (wl.drop m.wordIndex) = sk at *
    obtain ⟨k, out, clk'⟩ := sk
    simp only [List.length_drop] at *
    have long : ∀ {m0 m2 : WM} {Z : List Word}, (∀ w ∈ m0.alive, w.chars.length < maxLen) →
        m2.alive = m0.alive ++ Z → LKept e ((wl.drop m.wordIndex).take k) Z → ∀ x ∈ m2.alive, x.chars.length < maxLen := by
      intro m0 m2 Z h1 h2 h3 x hx
      rw [h2] at hx
      rcases List.mem_append.1 hx with hx | hx
      · exact h1 x hx
      · exact hwd x (List.mem_of_mem_take (h3.1 x hx))
    have la := long a3 c4 c5
    have lb := long b3 d4 d5
    cases out with
    | none =>
      exact ⟨m1, ms, m1', ms', none, clk', rfl, rfl, ⟨c2, by omega, la, a4.mono (by rw [c4]; simp)⟩,
        ⟨d2, by omega, lb, b4.mono (by rw [d4]; simp)⟩, by omega⟩
    | some w =>
      obtain ⟨pre, e1, e2, e3⟩ := hs w rfl
      have hk : 0 < k := by
        rcases Nat.eq_zero_or_pos k with h | h
        · subst h; simp at e1
        · exact h
      obtain ⟨C, hC⟩ := c5.2 pre w e1 e3
      obtain ⟨D, hD⟩ := d5.2 pre w e1 e3
      have ca : m1.alive = m.alive ++ C ++ [w] := by rw [c4, hC, List.append_assoc]
      have cb : m1'.alive = m'.alive ++ D ++ [w] := by rw [d4, hD, List.append_assoc]
      obtain ⟨ms1, f1, f2⟩ := lfeed s hes w (a4.mono (B := m.alive ++ C) (by simp)) (by rw [← ca]; exact la)
      obtain ⟨ms1', g1, g2⟩ := lfeed s' hes w (b4.mono (B := m'.alive ++ D) (by simp)) (by rw [← cb]; exact lb)
      rw [← ca] at f1 f2
      rw [← cb] at g1 g2
      simp only [f1, g1]
      have ha : LChain maxLen (e :: es) (m1 :: ms1) wl := ⟨c2, by omega, la, f2⟩
      have hb : LChain maxLen (e :: es) (m1' :: ms1') wl := ⟨d2, by omega, lb, g2⟩
      cases hv : es.all (fun e => matchB e w) with
      | true => exact ⟨m1, ms1, m1', ms1', some w, clk', rfl, rfl, ha, hb, by omega⟩
      | false => exact ih clk' ha hb (by omega) (by omega)

end Noodle
