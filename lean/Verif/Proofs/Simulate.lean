import Verif.Proofs.Reduce
/-
State reduction: the reduced tables accept the same phrases.
-/
namespace Noodle
open Spec

section
variable {fl n start D : Nat} {live : List Tbl} {T : Word → Tbl} {al : List Word} {alive : Nat} {red : List (Option Nat)}

theorem RedInv.alive_of_none {m : Nat} (h : RedInv fl n live alive m red) {i : Nat} (hi : red[i]? = some none) :
    i < n ∧ alive.testBit i = true := by
  have hl := (List.getElem?_eq_some_iff.1 hi).1
  rw [h.len] at hl
  refine ⟨hl, ?_⟩
  by_contra hc
  rw [h.dead i hl (by simpa using hc)] at hi
  simp at hi

theorem RedInv.last {m : Nat} (h : RedInv fl n live alive m red) (hn : 0 < n) (ha : alive.testBit (n - 1) = true) :
    red[n - 1]? = some none := by
  rcases h.live (n - 1) (by omega) ha with h1 | ⟨r, _, _, h1, _⟩
  · exact h1
  · omega

theorem RedInv.zero {m : Nat} (h : RedInv fl n live alive m red) (hn : 0 < n) (ha : alive.testBit 0 = true) :
    red[0]? = some none := by
  rcases h.live 0 hn ha with h1 | ⟨r, _, h1, _⟩
  · exact h1
  · omega

/-- The representative of a state. -/
theorem RedInv.rep {m : Nat} (h : RedInv fl n live alive m red) {i : Nat} (hi : i < n) (ha : alive.testBit i = true) :
    ∃ r, red[r]? = some none ∧ newSource red i = some (rho red r) ∧
      (r = i ∨ (sameState fl live alive r i = true ∧ red[i]? = some (some r))) := by
  rcases h.live i hi ha with h1 | ⟨r, _, h2, _, h3, h4, h5, h6⟩
  · refine ⟨i, h1, ?_, Or.inl rfl⟩
    rw [newSource, List.getD, h1]
    exact (newIndex_eq red i _).2 ⟨h1, rfl⟩
  · refine ⟨r, h4, ?_, Or.inr ⟨h6, h3⟩⟩
    rw [newSource, List.getD, h3]
    simp only [Option.getD_some]
    rw [if_neg (by omega)]
    exact (newIndex_eq red r _).2 ⟨h4, rfl⟩

theorem RedInv.source {m : Nat} (h : RedInv fl n live alive m red) {i x : Nat} (hi : i < n)
    (hs : newSource red i = some x) : alive.testBit i = true ∧ ∃ r, red[r]? = some none ∧ x = rho red r ∧
      (r = i ∨ sameState fl live alive r i = true) := by
  have ha : alive.testBit i = true := by
    by_contra hc
    have := h.dead i hi (by simpa using hc)
    rw [newSource, List.getD, this] at hs
    simp at hs
  obtain ⟨r, h1, h2, h3⟩ := h.rep hi ha
  rw [h2] at hs
  exact ⟨ha, r, h1, by simpa using hs.symm, h3.imp id And.left⟩

theorem newSource_lt {m : Nat} (h : RedInv fl n live alive m red) (src x : Nat) (hi : src < n)
    (hs : newSource red src = some x) : x < red.countP Option.isNone := by
  obtain ⟨_, r, h1, rfl, _⟩ := h.source hi hs
  exact rho_lt red h1

/-- Bits of the reduced table. -/
theorem reduced_bit {m : Nat} (h : RedInv fl n live alive m red) {t : Tbl} (ht : t ∈ live) (x f y : Nat) :
    (((remapTbl red fl n (red.countP Option.isNone) t).row x).at f).testBit y = true ↔
      f < fl ∧ ∃ r d, red[r]? = some none ∧ red[d]? = some none ∧ x = rho red r ∧ y = rho red d ∧
        ((t.row r).at f).testBit d = true := by
  rw [remapTbl_mem red fl n _ t (newSource_lt h)]
  constructor
  · rintro ⟨hf, src, hsrc, hns, d, hb, hd, hy⟩
    obtain ⟨ha, r, hr, hx, hsame⟩ := h.source hsrc hns
    refine ⟨hf, r, d, hr, hd, hx, hy, ?_⟩
    rcases hsame with rfl | hsame
    · exact hb
    · rw [(sameState_spec hsame ht hf (h.alive_of_none hd).2).1]; exact hb
  · rintro ⟨hf, r, d, hr, hd, hx, hy, hb⟩
    refine ⟨hf, r, (h.alive_of_none hr).1, ?_, d, hb, hd, hy⟩
    rw [newSource, List.getD, hr, hx]
    exact (newIndex_eq red r _).2 ⟨hr, rfl⟩

/-- Paths of the reduced tables come from paths of the original ones. -/
theorem path_back {m : Nat} (h : RedInv fl n live alive m red) (ws : List Word) :
    ∀ (x k y : Nat), (∀ w ∈ ws, T w ∈ live) →
      Path (fun w => remapTbl red fl n (red.countP Option.isNone) (T w)) x ws k y →
      ∀ r, red[r]? = some none → x = rho red r → ∃ d, red[d]? = some none ∧ y = rho red d ∧ Path T r ws k d := by
  induction ws with
  | nil => intro x k y _ hp r hr hx; cases hp; exact ⟨r, hr, hx, Path.nil r⟩
  | cons w ws ih =>
    intro x k y hw hp r hr hx
    cases hp with
    | @cons _ z _ _ _ f k' h1 h2 =>
      obtain ⟨_, r', d', hr', hd', hx', hy', hb⟩ := (reduced_bit h (hw w (by simp)) x f z).1 h1
      have : r' = r := rho_inj red hr' hr (by rw [← hx', hx])
      subst this
      obtain ⟨d, hd, hy, hpath⟩ := ih _ _ _ (fun v hv => hw v (by simp [hv])) h2 d' hd' hy'
      exact ⟨d, hd, hy, Path.cons hb hpath⟩

/-- Accepting paths of the original tables are mapped to the reduced ones. -/
theorem path_forth (h : RedInv fl n live (aliveStates fl n start live D) n red) (hn : 0 < n)
    (hrange : ∀ w ∈ al, ∀ s f d, (((T w).row s).at f).testBit d = true → s < n ∧ d < n)
    (hT : ∀ w ∈ al, T w ∈ live) (s : Nat) (hs : start.testBit s = true) (post : List Word) :
    ∀ (pre : List Word) (m k1 k2 : Nat), m < n → (∀ w ∈ pre ++ post, w ∈ al) → pre.length + post.length ≤ D →
      k1 + k2 < fl → Path T s pre k1 m → Path T m post k2 (n - 1) →
      ∃ r, red[r]? = some none ∧ newSource red m = some (rho red r) ∧
        (r = m ∨ (sameState fl live (aliveStates fl n start live D) r m = true ∧ red[m]? = some (some r))) ∧
        Path (fun w => remapTbl red fl n (red.countP Option.isNone) (T w)) (rho red r) post k2
          (red.countP Option.isNone - 1) := by
  induction post with
  | nil =>
    intro pre m k1 k2 hm hal hlen hk h1 h2
    have ham := alive_on_path fl n start D live T pre [] s m k1 k2 hm (fun w hw => hT w (hal w hw)) hlen hs hk h1 h2
    cases h2
    have hlast := h.last hn ham
    obtain ⟨r, a, b, c⟩ := h.rep hm ham
    have hr : r = n - 1 := by
      rcases c with c | ⟨_, c⟩
      · exact c
      · rw [hlast] at c; simp at c
    subst hr
    refine ⟨n - 1, a, b, c, ?_⟩
    rw [rho_last red n h.len hlast hn]
    exact Path.nil _
  | cons w post ih =>
    intro pre m k1 k2 hm hal hlen hk h1 h2
    have ham := alive_on_path fl n start D live T pre (w :: post) s m k1 k2 hm (fun w hw => hT w (hal w hw)) hlen hs hk h1 h2
    obtain ⟨r, hr, hsrc, hsame⟩ := h.rep hm ham
    refine ⟨r, hr, hsrc, hsame, ?_⟩
    cases h2 with
    | @cons _ m' _ _ _ f k' hb hp =>
      have hw : w ∈ al := hal w (by simp)
      have hm' := (hrange w hw _ _ _ hb).2
      have hpre : Path T s (pre ++ [w]) (k1 + f) m' := by
        rw [path_append]
        exact ⟨m, k1, f, h1, by simpa using Path.cons hb (Path.nil m'), rfl⟩
      have ham' := alive_on_path fl n start D live T (pre ++ [w]) post s m' (k1 + f) k' hm'
        (fun v hv => hT v (hal v (by simpa using hv))) (by simp at hlen ⊢; omega) hs (by omega) hpre hp
      obtain ⟨r', hr', _, hsame', hpath⟩ := ih (pre ++ [w]) m' (k1 + f) k' hm'
        (fun v hv => hal v (by simpa using hv)) (by simp at hlen ⊢; omega) (by omega) hpre hp
      apply Path.cons (m := rho red r') _ hpath
      rw [reduced_bit h (hT w hw)]
      refine ⟨by omega, r, r', hr, hr', rfl, rfl, ?_⟩
      have hb1 : (((T w).row r).at f).testBit m' = true := by
        rcases hsame with rfl | ⟨hsame, _⟩
        · exact hb
        · rw [(sameState_spec hsame (hT w hw) (show f < fl by omega) ham').1]; exact hb
      rcases hsame' with rfl | ⟨hsame', _⟩
      · exact hb1
      · rw [(sameState_spec hsame' (hT w hw) (show f < fl by omega) (h.alive_of_none hr).2).2]; exact hb1

/-- A path that starts in a dominated state can start in state 0. -/
theorem path_dom (hdom : ∀ w ∈ al, ∀ j k d, start.testBit j = true → k < fl →
      Cum ((T w).row j) k d → Cum ((T w).row 0) k d)
    (ws : List Word) (hne : ws ≠ []) (hal : ∀ w ∈ ws, w ∈ al) (s k d : Nat) (hs : start.testBit s = true) (hk : k < fl)
    (hp : Path T s ws k d) : ∃ k', k' ≤ k ∧ Path T 0 ws k' d := by
  cases hp with
  | nil => exact absurd rfl hne
  | @cons _ m _ w ws f k' h1 h2 =>
    obtain ⟨f', hf', hb'⟩ := hdom w (hal w (by simp)) s f m hs (by omega) ⟨f, Nat.le_refl _, h1⟩
    exact ⟨f' + k', by omega, Path.cons hb' h2⟩

/-- The reduced tables accept nothing new. -/
theorem reduced_back (h : RedInv fl n live (aliveStates fl n start live D) n red) (hn : 0 < n)
    (hlast : (aliveStates fl n start live D).testBit (n - 1) = true)
    (ws : List Word) (hT : ∀ w ∈ ws, T w ∈ live) :
    PAcc (fun w => remapTbl red fl n (red.countP Option.isNone) (T w)) (remapSet red start)
      (red.countP Option.isNone) fl ws → PAcc T start n fl ws := by
  rintro ⟨x, k, h1, h2, h3⟩
  obtain ⟨s, hs, hsn, hx⟩ := (remapSet_mem red start x).1 h1
  obtain ⟨d, hd, hy, hp⟩ := path_back h ws x k _ hT h3 s hsn hx
  have hl := h.last hn hlast
  have : d = n - 1 := rho_inj red hd hl (by rw [rho_last red n h.len hl hn, hy])
  subst this
  exact ⟨s, k, hs, h2, hp⟩

/-- The reduction preserves acceptance. -/
theorem reduced_acc (h : RedInv fl n live (aliveStates fl n start live D) n red) (hn : 0 < n)
    (hlast : (aliveStates fl n start live D).testBit (n - 1) = true)
    (hrange : ∀ w ∈ al, ∀ s f d, (((T w).row s).at f).testBit d = true → s < n ∧ d < n)
    (hT : ∀ w ∈ al, T w ∈ live)
    (hdom : (start.testBit 0 = true ∧ ∀ w ∈ al, ∀ j k d, start.testBit j = true → k < fl →
        Cum ((T w).row j) k d → Cum ((T w).row 0) k d) ∨
      ∀ ws : List Word, ws ≠ [] → ws.length ≤ D → (∀ w ∈ ws, w ∈ al) → ¬ PAcc T start n fl ws)
    (ws : List Word) (hne : ws ≠ []) (hlen : ws.length ≤ D) (hal : ∀ w ∈ ws, w ∈ al) :
    PAcc (fun w => remapTbl red fl n (red.countP Option.isNone) (T w)) (remapSet red start)
      (red.countP Option.isNone) fl ws ↔ PAcc T start n fl ws := by
  constructor
  · exact reduced_back h hn hlast ws (fun w hw => hT w (hal w hw))
  · intro hacc
    rcases hdom with ⟨h0, hdom⟩ | hno
    · obtain ⟨s, k, h1, h2, h3⟩ := hacc
      obtain ⟨k', hk', hp⟩ := path_dom hdom ws hne hal s k _ h1 h2 h3
      have ha0 := alive_on_path fl n start D live T [] ws 0 0 0 k' hn (fun w hw => hT w (hal w (by simpa using hw)))
        (by simpa using hlen) h0 (by omega) (Path.nil 0) hp
      have hr0 := h.zero hn ha0
      obtain ⟨r, hr, hsrc, hsame, hpath⟩ := path_forth (al := al) h hn hrange hT 0 h0 ws [] 0 0 k' hn
        (by simpa using hal) (by simpa using hlen) (by omega) (Path.nil 0) hp
      have : r = 0 := by
        rcases hsame with c | ⟨_, c⟩
        · exact c
        · rw [hr0] at c; simp at c
      subst this
      exact ⟨rho red 0, k', (remapSet_mem red start _).2 ⟨0, h0, hr0, rfl⟩, by omega, hpath⟩
    · exact absurd hacc (hno ws hne hlen hal)

/-- The reduction preserves dominance. -/
theorem reduced_dom (h : RedInv fl n live (aliveStates fl n start live D) n red) (hn : 0 < n)
    (hlast : (aliveStates fl n start live D).testBit (n - 1) = true)
    (hrange : ∀ w ∈ al, ∀ s f d, (((T w).row s).at f).testBit d = true → s < n ∧ d < n)
    (hT : ∀ w ∈ al, T w ∈ live)
    (hdom : (start.testBit 0 = true ∧ ∀ w ∈ al, ∀ j k d, start.testBit j = true → k < fl →
        Cum ((T w).row j) k d → Cum ((T w).row 0) k d) ∨
      ∀ ws : List Word, ws ≠ [] → ws.length ≤ D → (∀ w ∈ ws, w ∈ al) → ¬ PAcc T start n fl ws) :
    ((remapSet red start).testBit 0 = true ∧ ∀ w ∈ al, ∀ j k d, (remapSet red start).testBit j = true → k < fl →
        Cum ((remapTbl red fl n (red.countP Option.isNone) (T w)).row j) k d →
        Cum ((remapTbl red fl n (red.countP Option.isNone) (T w)).row 0) k d) ∨
      ∀ ws : List Word, ws ≠ [] → ws.length ≤ D → (∀ w ∈ ws, w ∈ al) →
        ¬ PAcc (fun w => remapTbl red fl n (red.countP Option.isNone) (T w)) (remapSet red start)
          (red.countP Option.isNone) fl ws := by
  by_cases hex : ∃ ws : List Word, ws ≠ [] ∧ ws.length ≤ D ∧ (∀ w ∈ ws, w ∈ al) ∧ PAcc T start n fl ws
  · obtain ⟨ws, hne, hlen, hal, hacc⟩ := hex
    rcases hdom with ⟨h0, hdom⟩ | hno
    · left
      obtain ⟨s, k, h1, h2, h3⟩ := hacc
      obtain ⟨k', hk', hp⟩ := path_dom hdom ws hne hal s k _ h1 h2 h3
      have ha0 := alive_on_path fl n start D live T [] ws 0 0 0 k' hn (fun w hw => hT w (hal w (by simpa using hw)))
        (by simpa using hlen) h0 (by omega) (Path.nil 0) hp
      have hr0 := h.zero hn ha0
      have hrho : rho red 0 = 0 := by simp [rho]
      refine ⟨(remapSet_mem red start _).2 ⟨0, h0, hr0, hrho.symm⟩, ?_⟩
      intro w hw j k d hj hk hc
      obtain ⟨s, hs, hsn, hx⟩ := (remapSet_mem red start j).1 hj
      obtain ⟨f, hf, hb⟩ := hc
      obtain ⟨hfl, r, d', hr, hd', hx', hy, hb'⟩ := (reduced_bit h (hT w hw) j f d).1 hb
      have : r = s := rho_inj red hr hsn (by rw [← hx, hx'])
      subst this
      obtain ⟨f', hf', hb''⟩ := hdom w hw r k d' hs hk ⟨f, hf, hb'⟩
      exact ⟨f', hf', (reduced_bit h (hT w hw) 0 f' d).2 ⟨by omega, 0, d', hr0, hd', hrho.symm, hy, hb''⟩⟩
    · exact absurd hacc (hno ws hne hlen hal)
  · right
    intro ws hne hlen hal hacc
    exact hex ⟨ws, hne, hlen, hal, (reduced_acc (al := al) h hn hlast hrange hT hdom ws hne hlen hal).1 hacc⟩

end
end Noodle
