import Verif.Spec.Extract
import Verif.Proofs.ListCount
import Verif.Proofs.Syntax
/-
Lemmas about the extraction of words.
-/
namespace Noodle
set_option autoImplicit false
open Spec

/-! ### Regular expressions -/

section
variable {α : Type} {p : Char → Bool} {k : List Char → List Char → Option α}

theorem starRe_some : ∀ {s acc : List Char} {r : α}, starRe p k acc s = some r →
    ∃ t s', s = t ++ s' ∧ (∀ c ∈ t, p c = true) ∧ k (acc ++ t) s' = some r := by
  intro s
  induction s with
  | nil => intro acc r h; exact ⟨[], [], rfl, by simp, by simpa [starRe] using h⟩
  | cons c cs ih =>
    intro acc r h
    rw [starRe] at h
    split at h
    · next hp =>
      split at h
      · next r' hr =>
        cases h
        obtain ⟨t, s', e, h1, h2⟩ := ih hr
        refine ⟨c :: t, s', by rw [e]; rfl, ?_, by simpa using h2⟩
        intro d hd
        rcases List.mem_cons.1 hd with rfl | hd
        · exact hp
        · exact h1 d hd
      · exact ⟨[], c :: cs, rfl, by simp, by simpa using h⟩
    · exact ⟨[], c :: cs, rfl, by simp, by simpa using h⟩

theorem starRe_any : ∀ {t s' acc : List Char} {r : α}, (∀ c ∈ t, p c = true) → k (acc ++ t) s' = some r →
    ∃ r', starRe p k acc (t ++ s') = some r' := by
  intro t
  induction t with
  | nil =>
    intro s' acc r _ h
    rw [List.append_nil] at h
    cases s' with
    | nil => exact ⟨r, h⟩
    | cons c cs =>
      rw [List.nil_append, starRe]
      split
      · split
        · exact ⟨_, rfl⟩
        · exact ⟨r, h⟩
      · exact ⟨r, h⟩
  | cons c t ih =>
    intro s' acc r hp h
    obtain ⟨r', hr⟩ := ih (s' := s') (acc := acc ++ [c]) (r := r) (fun d hd => hp d (by simp [hd])) (by simpa using h)
    rw [List.cons_append, starRe, if_pos (hp c (by simp)), hr]
    exact ⟨r', rfl⟩

/-- As much as possible. -/
theorem starRe_max : ∀ {t s' acc : List Char} {r : α}, (∀ c ∈ t, p c = true) → (∀ c, s'.head? = some c → p c = false) →
    k (acc ++ t) s' = some r → starRe p k acc (t ++ s') = some r := by
  intro t
  induction t with
  | nil =>
    intro s' acc r _ hs h
    rw [List.append_nil] at h
    cases s' with
    | nil => exact h
    | cons c cs =>
      rw [List.nil_append, starRe, if_neg (by simp [hs c rfl])]
      exact h
  | cons c t ih =>
    intro s' acc r hp hs h
    have hr := ih (s' := s') (acc := acc ++ [c]) (r := r) (fun d hd => hp d (by simp [hd])) hs (by simpa using h)
    rw [List.cons_append, starRe, if_pos (hp c (by simp)), hr]

theorem lazyRe_some : ∀ {s acc : List Char} {r : α}, lazyRe p k acc s = some r →
    ∃ t s', s = t ++ s' ∧ (∀ c ∈ t, p c = true) ∧ k (acc ++ t) s' = some r ∧
      ∀ t1 s1, s = t1 ++ s1 → t1.length < t.length → k (acc ++ t1) s1 = none := by
  intro s
  induction s with
  | nil => intro acc r h; exact ⟨[], [], rfl, by simp, by simpa [lazyRe] using h, fun t1 s1 _ hl => by simp at hl⟩
  | cons c cs ih =>
    intro acc r h
    rw [lazyRe] at h
    split at h
    · next hr =>
      cases h
      exact ⟨[], c :: cs, rfl, by simp, by simpa using hr, fun t1 s1 _ hl => by simp at hl⟩
    · next hn =>
      split at h
      · next hp =>
        obtain ⟨t, s', e, h1, h2, h3⟩ := ih h
        refine ⟨c :: t, s', by rw [e]; rfl, ?_, by simpa using h2, ?_⟩
        · intro d hd
          rcases List.mem_cons.1 hd with rfl | hd
          · exact hp
          · exact h1 d hd
        · intro t1 s1 e1 hl
          cases t1 with
          | nil =>
            rw [List.nil_append] at e1
            rw [List.append_nil, ← e1]; exact hn
          | cons d t1 =>
            rw [List.cons_append, List.cons.injEq] at e1
            obtain ⟨rfl, e1⟩ := e1
            have := h3 t1 s1 e1 (by simpa using hl)
            simpa using this
      · cases h

theorem lazyRe_any : ∀ {t s' acc : List Char} {r : α}, (∀ c ∈ t, p c = true) → k (acc ++ t) s' = some r →
    ∃ r', lazyRe p k acc (t ++ s') = some r' := by
  intro t
  induction t with
  | nil =>
    intro s' acc r _ h
    rw [List.append_nil] at h
    cases s' with
    | nil => exact ⟨r, h⟩
    | cons c cs => rw [List.nil_append, lazyRe, h]; exact ⟨r, rfl⟩
  | cons c t ih =>
    intro s' acc r hp h
    obtain ⟨r', hr⟩ := ih (s' := s') (acc := acc ++ [c]) (r := r) (fun d hd => hp d (by simp [hd])) (by simpa using h)
    rw [List.cons_append, lazyRe]
    split
    · exact ⟨_, rfl⟩
    · rw [if_pos (hp c (by simp)), hr]; exact ⟨r', rfl⟩

theorem literal_some {k : List Char → Option α} {pat s : List Char} {r : α} :
    literal k pat s = some r ↔ ∃ s', s = pat ++ s' ∧ k s' = some r := by
  unfold literal
  constructor
  · intro h
    split at h
    · next hp =>
      obtain ⟨s', rfl⟩ := List.isPrefixOf_iff_prefix.1 hp
      exact ⟨s', rfl, by simpa using h⟩
    · cases h
  · rintro ⟨s', rfl, h⟩
    rw [if_pos (List.isPrefixOf_iff_prefix.2 ⟨s', rfl⟩)]
    simpa using h

end

/-! ### The bodies -/

theorem dot_iff {l : List Char} : (∀ c ∈ l, dot c = true) ↔ '\n' ∉ l := by
  constructor
  · intro h hm
    exact absurd (h _ hm) (by decide)
  · intro h c hc
    unfold dot
    rw [bne_iff_ne]
    rintro rfl
    exact h hc

theorem retrieved_dot : '\n' ∉ retrieved := by decide

/-- A shorter start of the same text. -/
theorem prefix_short {a b s t : List Char} (e : a ++ s = b ++ t) (h : a.length ≤ b.length) : ∃ d, b = a ++ d ∧ s = d ++ t := by
  rcases List.append_eq_append_iff.1 e with ⟨d, h1, h2⟩ | ⟨d, h1, h2⟩
  · exact ⟨d, h1, h2⟩
  · have hl := congrArg List.length h1
    rw [List.length_append] at hl
    have : d = [] := List.eq_nil_of_length_eq_zero (by omega)
    subst this
    exact ⟨[], by simpa using h1.symm, by simpa using h2.symm⟩

theorem stripBody_spec (body : List Char) : CutBody body (stripBody body) := by
  unfold stripBody
  cases h : stripBodyRe body with
  | none =>
    refine .whole fun a b c e => ?_
    refine Classical.byContradiction fun hn => ?_
    have h1 : '\n' ∉ a := fun hm => hn (by simp [hm])
    have h2 : '\n' ∉ b := fun hm => hn (by simp [hm])
    obtain ⟨r1, hr1⟩ := lazyRe_any (p := dot) (acc := []) (t := b) (s' := retrieved ++ c)
      (k := fun b s => literal (fun _ => some (a ++ retrieved ++ b)) retrieved s) (dot_iff.2 h2) (literal_some.2 ⟨c, rfl, rfl⟩)
    obtain ⟨r2, hr2⟩ := lazyRe_any (p := dot) (acc := []) (t := a) (s' := retrieved ++ (b ++ retrieved ++ c))
      (k := fun a s => literal (fun s => lazyRe dot (fun b s => literal (fun _ => some (a ++ retrieved ++ b)) retrieved s) [] s)
        retrieved s) (dot_iff.2 h1) (literal_some.2 ⟨_, rfl, by simpa using hr1⟩)
    unfold stripBodyRe at h
    rw [e, show " Retrieved ".toList = retrieved from rfl, List.append_assoc, hr2] at h
    cases h
  | some r =>
    unfold stripBodyRe at h
    obtain ⟨a, s1, e1, ha, hk, hmin⟩ := lazyRe_some h
    rw [literal_some] at hk
    obtain ⟨s2, rfl, hk⟩ := hk
    obtain ⟨b, s3, e2, hb, hk, hminb⟩ := lazyRe_some hk
    rw [literal_some] at hk
    obtain ⟨c, rfl, hk⟩ := hk
    simp only [List.nil_append, Option.some.injEq] at hk
    subst hk
    rw [dot_iff] at ha hb
    subst e2
    have e : body = a ++ retrieved ++ (b ++ retrieved ++ c) := by rw [e1]; simp
    refine CutBody.cut (c := c) e (by simp [ha, hb]) ?_ ?_
    · intro a' s ea
      refine Classical.byContradiction fun hl => ?_
      rw [show " Retrieved ".toList = retrieved from rfl] at ea
      -- the second one is still there
      have hlen : (a' ++ retrieved).length ≤ (a ++ retrieved ++ b).length := by
        simp only [List.length_append]; omega
      obtain ⟨d, hd1, hd2⟩ := prefix_short (a := a' ++ retrieved) (b := a ++ retrieved ++ b) (s := s) (t := retrieved ++ c)
        (by rw [← ea, e]; simp) hlen
      obtain ⟨d', hd3, _⟩ := prefix_short (a := a') (b := a) (s := retrieved ++ s) (t := retrieved ++ (b ++ retrieved ++ c))
        (by rw [← List.append_assoc, ← ea, e]; simp) (by omega)
      have hnd : '\n' ∉ d := by
        intro hm
        have : '\n' ∈ a ++ retrieved ++ b := by rw [hd1]; simp [hm]
        simp only [List.mem_append] at this
        rcases this with (hm | hm) | hm
        · exact ha hm
        · exact retrieved_dot hm
        · exact hb hm
      obtain ⟨r1, hr1⟩ := lazyRe_any (p := dot) (acc := []) (t := d) (s' := retrieved ++ c)
        (k := fun b s => literal (fun _ => some (([] ++ a') ++ retrieved ++ b)) retrieved s) (dot_iff.2 hnd)
        (literal_some.2 ⟨c, rfl, rfl⟩)
      have := hmin a' (retrieved ++ s) (by rw [ea]; simp) (by omega)
      rw [literal] at this
      rw [if_pos (List.isPrefixOf_iff_prefix.2 ⟨s, rfl⟩)] at this
      rw [List.drop_left, hd2, hr1] at this
      cases this
    · intro b' s eb
      refine Classical.byContradiction fun hl => ?_
      rw [show " Retrieved ".toList = retrieved from rfl] at eb
      have := hminb b' (retrieved ++ s) (by rw [← List.append_assoc, ← List.append_assoc]; exact eb) (by omega)
      rw [literal, if_pos (List.isPrefixOf_iff_prefix.2 ⟨s, rfl⟩)] at this
      cases this

/-! ### The words -/

theorem anyLetter_iff {s : List Char} (h : '\n' ∉ s) : anyLetterRe s = true ↔ ∃ c ∈ s, c.isAlpha = true := by
  unfold anyLetterRe
  rw [Option.isSome_iff_exists]
  constructor
  · rintro ⟨r, hr⟩
    obtain ⟨t, s', rfl, _, hk⟩ := starRe_some hr
    cases s' with
    | nil => cases hk
    | cons c s' =>
      dsimp only at hk
      split at hk
      · next hc => exact ⟨c, by simp, hc⟩
      · cases hk
  · rintro ⟨c, hc, ha⟩
    obtain ⟨t, s', rfl⟩ := List.append_of_mem hc
    refine starRe_any (p := dot) (r := ()) (dot_iff.2 fun hm => h (by simp [hm])) ?_
    dsimp only
    rw [if_pos ha]
    have := starRe_max (p := dot) (k := fun _ _ => some ()) (acc := []) (t := s') (s' := []) (r := ())
      (dot_iff.2 fun hm => h (by simp [hm])) (by simp) rfl
    simpa using this

theorem within_iff {pat : List Char} : ∀ {s : List Char}, within pat s = true ↔ pat <:+: s := by
  intro s
  induction s with
  | nil => rw [within, List.isEmpty_iff, List.infix_nil]
  | cons c cs ih =>
    rw [within, Bool.or_eq_true, ih, List.isPrefixOf_iff_prefix, List.infix_cons_iff]

theorem domain_iff {s : List Char} (h : '\n' ∉ s) : domainRe s = true ↔
    ∃ d ∈ [".com", ".co.", ".org", ".net", ".gov", ".biz", ".info", ".today", ".cz", ".at", ".dk", ".de"], d.toList <:+: s := by
  have hends : ∀ x : List Char, (∃ d ∈ domainEnds, '.' :: d = x) ↔
      ∃ d ∈ [".com", ".co.", ".org", ".net", ".gov", ".biz", ".info", ".today", ".cz", ".at", ".dk", ".de"], d.toList = x := by
    have : domainEnds.map (fun d => '.' :: d) =
        [".com", ".co.", ".org", ".net", ".gov", ".biz", ".info", ".today", ".cz", ".at", ".dk", ".de"].map String.toList := by
      decide
    intro x
    rw [← List.mem_map, this, List.mem_map]
  unfold domainRe
  rw [Option.isSome_iff_exists]
  constructor
  · rintro ⟨r, hr⟩
    obtain ⟨t, s', rfl, _, hk⟩ := starRe_some hr
    obtain ⟨s1, rfl, hk⟩ := literal_some.1 hk
    obtain ⟨d, hd, hk⟩ := List.exists_of_findSome?_eq_some hk
    obtain ⟨s2, rfl, _⟩ := literal_some.1 hk
    obtain ⟨d', hd', e⟩ := (hends ('.' :: d)).1 ⟨d, hd, rfl⟩
    exact ⟨d', hd', t, s2, by rw [e]; simp⟩
  · rintro ⟨d', hd', t, s2, rfl⟩
    obtain ⟨d, hd, e⟩ := (hends d'.toList).2 ⟨d', hd', rfl⟩
    rw [← e, List.append_assoc]
    rw [← e] at h
    have hsome : ∃ r, (domainEnds.findSome? fun d' => literal (fun _ => some ()) d' (d ++ s2)) = some r := by
      rw [← Option.isSome_iff_exists, List.findSome?_isSome_iff]
      exact ⟨d, hd, by rw [(literal_some (k := fun _ => some ()) (r := ())).2 ⟨s2, rfl, rfl⟩]; rfl⟩
    obtain ⟨r, hr⟩ := hsome
    exact starRe_any (p := dot) (r := r) (dot_iff.2 fun hm => h (by simp [hm])) (literal_some.2 ⟨d ++ s2, by simp, hr⟩)

theorem single_infix {α : Type} {x : α} {l : List α} : [x] <:+: l ↔ x ∈ l := by
  constructor
  · rintro ⟨a, b, rfl⟩; simp
  · intro h
    obtain ⟨a, b, rfl⟩ := List.append_of_mem h
    exact ⟨a, b, by simp⟩

/-- Where the last word character is. -/
theorem core_end {W : Char → Bool} {w w' b b' : List Char} {y y' : Char} (e : w ++ b = w' ++ b') (h1 : w.getLast? = some y)
    (h2 : W y = true) (h3 : w'.getLast? = some y') (h4 : W y' = true) (h5 : ∀ c ∈ b, W c = false) (h6 : ∀ c ∈ b', W c = false) :
    w = w' := by
  have key : ∀ {w w' b b' : List Char} {y' : Char}, w ++ b = w' ++ b' → w'.getLast? = some y' → W y' = true →
      (∀ c ∈ b, W c = false) → w.length ≤ w'.length → w = w' := by
    intro w w' b b' y' e h3 h4 h5 hl
    obtain ⟨d, rfl, rfl⟩ := prefix_short e hl
    cases hd : d.getLast? with
    | none => rw [List.getLast?_eq_none_iff.1 hd, List.append_nil]
    | some z =>
      rw [List.getLast?_append, hd] at h3
      cases h3
      have := h5 _ (List.mem_append_left _ (List.mem_of_getLast? hd))
      rw [h4] at this; cases this
  rcases Nat.le_total w.length w'.length with hl | hl
  · exact key e h3 h4 h5 hl
  · exact (key e.symm h1 h2 h6 hl).symm

variable {W : Char → Bool}

theorem stripWordRe_some {word g : List Char} (h : stripWordRe W word = some g) :
    ∃ a t c s, word = a ++ (t ++ c :: s) ∧ (∀ x ∈ a, W x = false) ∧ (∀ x ∈ t, innerChar W x = true) ∧ W c = true ∧
      (∀ x ∈ s, W x = false ∨ x = '\n') ∧ g = t ++ [c] := by
  unfold stripWordRe at h
  obtain ⟨a, s1, e1, ha, h⟩ := starRe_some h
  obtain ⟨t, s2, e2, ht, h⟩ := starRe_some h
  cases s2 with
  | nil => cases h
  | cons c s =>
    dsimp only at h
    split at h
    · next hc =>
      obtain ⟨u, v, e3, hu, h⟩ := starRe_some h
      split at h
      · next hv =>
        rw [List.nil_append] at h
        cases h
        refine ⟨a, t, c, s, by rw [e1, e2], fun x hx => by simpa using ha x hx, ht, hc, ?_, rfl⟩
        intro x hx
        rw [e3] at hx
        rcases List.mem_append.1 hx with hx | hx
        · exact .inl (by simpa using hu x hx)
        · unfold atEnd at hv
          rw [Bool.or_eq_true, beq_iff_eq, beq_iff_eq] at hv
          rcases hv with rfl | rfl
          · cases hx
          · exact .inr (by simpa using hx)
      · cases h
    · cases h

theorem stripWordRe_core (hn : W '\n' = false) {word w : List Char} (hc : Core W word w) (hi : ∀ c ∈ w, innerChar W c = true) :
    stripWordRe W word = some w := by
  obtain ⟨a, b, x, y, rfl, hab, hx, hWx, hy, hWy⟩ := hc
  have ha : ∀ c ∈ a, W c = false := fun c hc => hab c (by simp [hc])
  have hb : ∀ c ∈ b, W c = false := fun c hc => hab c (by simp [hc])
  unfold stripWordRe
  rw [List.append_assoc]
  refine starRe_max (p := fun c => !W c) (acc := []) (fun c hc => by simp [ha c hc]) ?_ ?_
  · intro c hc
    rw [List.head?_append, hx] at hc
    cases hc
    simp [hWx]
  · obtain ⟨w0, rfl⟩ : ∃ w0, w = w0 ++ [y] := by
      obtain ⟨w0, e⟩ := List.getLast?_eq_some_iff.1 hy
      exact ⟨w0, e⟩
    have h3 : starRe (fun c => !W c) (fun _ s => if atEnd s then some (w0 ++ [y]) else none) [] b = some (w0 ++ [y]) := by
      have := starRe_max (p := fun c => !W c) (k := fun _ s => if atEnd s then some (w0 ++ [y]) else none) (acc := []) (t := b)
        (s' := []) (r := w0 ++ [y]) (fun c hc => by simp [hb c hc]) (by simp) rfl
      simpa using this
    have hex : ∃ r, starRe (innerChar W) (fun t s => match s with
        | c :: s => if W c then starRe (fun c => !W c) (fun _ s => if atEnd s then some (t ++ [c]) else none) [] s else none
        | [] => none) [] (w0 ++ (y :: b)) = some r := by
      refine starRe_any (r := w0 ++ [y]) (fun c hc => hi c (by simp [hc])) ?_
      show (if W y = true then _ else _) = _
      rw [if_pos hWy, List.nil_append]
      exact h3
    obtain ⟨r, hr⟩ := hex
    rw [List.append_assoc]
    refine hr.trans (congrArg some ?_)
    obtain ⟨t, s2, e2, _, h⟩ := starRe_some hr
    cases s2 with
    | nil => cases h
    | cons c s =>
      dsimp only at h
      split at h
      · next hc =>
        obtain ⟨u, v, e3, hu, h⟩ := starRe_some h
        split at h
        · next hv =>
          rw [List.nil_append] at h
          cases h
          refine (core_end (W := W) (y := y) (y' := c) (b := b) (b' := s) (by rw [List.append_assoc, List.append_assoc]; exact e2)
            (by simp) hWy (by simp) hc hb ?_).symm
          intro x hx
          rw [e3] at hx
          rcases List.mem_append.1 hx with hx | hx
          · simpa using hu x hx
          · unfold atEnd at hv
            rw [Bool.or_eq_true, beq_iff_eq, beq_iff_eq] at hv
            rcases hv with rfl | rfl
            · cases hx
            · rw [List.mem_singleton] at hx; rw [hx]; exact hn
        · cases h
      · cases h

theorem stripWordRe_iff (hn : W '\n' = false) {word g : List Char} :
    stripWordRe W word = some g ↔ Core W word g ∧ ∀ c ∈ g, innerChar W c = true := by
  refine ⟨fun h => ?_, fun h => stripWordRe_core hn h.1 h.2⟩
  obtain ⟨a, t, c, s, e, ha, ht, hc, hs, hg⟩ := stripWordRe_some h
  have hlast : ((t ++ [c]).dropWhile fun x => !W x).getLast? = some c := by
    have hsuf : ((t ++ [c]).dropWhile fun x => !W x) <:+ t ++ [c] := List.dropWhile_suffix _
    have hne : ((t ++ [c]).dropWhile fun x => !W x) ≠ [] := by
      intro h0
      have := List.takeWhile_append_dropWhile (p := fun x => !W x) (l := t ++ [c])
      rw [h0, List.append_nil] at this
      have hall := List.all_eq_true.1 (List.all_takeWhile (p := fun x => !W x) (l := t ++ [c])) c (by rw [this]; simp)
      simp [hc] at hall
    obtain ⟨u, hu⟩ := hsuf
    have := congrArg List.getLast? hu
    rw [List.getLast?_append, List.getLast?_append] at this
    cases hl : ((t ++ [c]).dropWhile fun x => !W x).getLast? with
    | none => exact absurd (List.getLast?_eq_none_iff.1 hl) hne
    | some z => rw [hl] at this; simpa using this
  have hcore : Core W word ((t ++ [c]).dropWhile fun x => !W x) := by
    cases hh : ((t ++ [c]).dropWhile fun x => !W x).head? with
    | none => rw [List.head?_eq_none_iff.1 hh] at hlast; cases hlast
    | some x =>
      refine ⟨a ++ (t ++ [c]).takeWhile (fun x => !W x), s, x, c, ?_, ?_, hh, ?_, hlast, hc⟩
      · rw [List.append_assoc a, List.takeWhile_append_dropWhile, e]; simp
      · intro z hz
        simp only [List.mem_append] at hz
        rcases hz with (hz | hz) | hz
        · exact ha z hz
        · have := List.all_eq_true.1 (List.all_takeWhile (p := fun x => !W x) (l := t ++ [c])) z hz
          simpa using this
        · rcases hs z hz with h | rfl
          · exact h
          · exact hn
      · have := List.head?_dropWhile_not (fun x => !W x) (t ++ [c])
        rw [hh] at this
        simpa using this
  have hin : ∀ z ∈ (t ++ [c]).dropWhile (fun x => !W x), innerChar W z = true := by
    intro z hz
    have := (List.dropWhile_suffix (fun x => !W x)).subset hz
    rcases List.mem_append.1 this with hz | hz
    · exact ht z hz
    · rw [List.mem_singleton] at hz
      subst hz
      unfold innerChar
      rw [hc]; rfl
  have := stripWordRe_core hn hcore hin
  rw [h] at this
  cases this
  exact ⟨hcore, hin⟩

theorem innerChar_iff {c : Char} : innerChar W c = true ↔ W c = true ∨ c ∈ "/-,.&'".toList := by
  unfold innerChar
  rw [Bool.or_eq_true, List.contains_iff_mem]

theorem stripWord_spec (hl : ∀ c : Char, c.isAlpha = true → W c = true) (hd : W '–' = false) (hn : W '\n' = false)
    {word : List Char} (hw : '\n' ∉ word) : Cleaned W word (stripWord W word) := by
  have core_sub : ∀ {w}, Core W word w → ∀ c ∈ w, c ∈ word := by
    rintro w ⟨a, b, x, y, rfl, _⟩ c hc
    simp [hc]
  have core_letter : ∀ {w}, Core W word w → (∃ c ∈ word, c.isAlpha = true) → ∃ c ∈ w, c.isAlpha = true := by
    rintro w ⟨a, b, x, y, rfl, hab, _⟩ ⟨c, hc, h⟩
    refine ⟨c, ?_, h⟩
    simp only [List.mem_append] at hc
    rcases hc with (hc | hc) | hc
    · have := hab c (by simp [hc]); rw [hl c h] at this; cases this
    · exact hc
    · have := hab c (by simp [hc]); rw [hl c h] at this; cases this
  unfold stripWord
  cases ha : anyLetterRe word with
  | false =>
    refine .none fun w hc hwl => ?_
    obtain ⟨c, hcw, h⟩ := hwl.letter
    have := (anyLetter_iff hw).2 ⟨c, core_sub hc c hcw, h⟩
    rw [ha] at this; cases this
  | true =>
    have ha' := (anyLetter_iff hw).1 ha
    dsimp only [Bool.not_true]
    rw [if_neg (by decide)]
    have of_re : ∀ {w}, Core W word w → Wordlike W w → stripWordRe W word = some w := fun hc hwl =>
      (stripWordRe_iff hn).2 ⟨hc, fun c h => innerChar_iff.2 (hwl.signs c h)⟩
    cases hr : stripWordRe W word with
    | none =>
      refine .none fun w hc hwl => ?_
      have := of_re hc hwl
      rw [hr] at this; cases this
    | some g =>
      obtain ⟨hc, hi⟩ := (stripWordRe_iff hn).1 hr
      have only : ∀ {w}, Core W word w → Wordlike W w → w = g := fun h1 h2 => by
        have := of_re h1 h2
        rw [hr] at this; exact (Option.some.inj this).symm
      have hmap : (g.map fun c => if c = '–' then '-' else c) = g := by
        refine Eq.trans (List.map_congr_left (g := id) fun c h => ?_) (List.map_id g)
        split
        · next e =>
          subst e
          rcases innerChar_iff.1 (hi _ h) with h | h
          · rw [hd] at h; cases h
          · exact absurd h (by decide)
        · rfl
      have hgn : '\n' ∉ g := fun h => hw (core_sub hc _ h)
      dsimp only
      rw [hmap]
      split
      · next h =>
        rw [within_iff, single_infix] at h
        refine .none fun w h1 h2 => ?_
        have := only h1 h2
        subst this
        exact h2.underscore h
      · next hu =>
        rw [within_iff, single_infix] at hu
        split
        · next h =>
          refine .none fun w h1 h2 => ?_
          have := only h1 h2
          subst this
          rw [Bool.or_eq_true, within_iff, domain_iff hgn] at h
          rcases h with h | ⟨d, hd, h⟩
          · exact h2.www h
          · exact h2.domain d hd h
        · next h =>
          rw [Bool.or_eq_true, within_iff, domain_iff hgn] at h
          refine .word hc ⟨fun c hc => innerChar_iff.1 (hi c hc), core_letter hc ha', hu, fun hh => h (.inl hh), ?_⟩
          exact fun d hd hh => h (.inr ⟨d, hd, hh⟩)

/-! ### Counting -/

theorem pySplit_spec (P : Python) : ∀ (s cur : List Char), (∀ c ∈ cur, P.space c = false) →
    Tokens P.space (cur ++ s) (pySplit P cur s) := by
  intro s
  induction s with
  | nil =>
    intro cur h
    rw [pySplit, List.append_nil]
    split
    · next he => rw [List.isEmpty_iff.1 he]; exact .nil
    · next he => exact .last (by simpa [List.isEmpty_iff] using he) h
  | cons c cs ih =>
    intro cur h
    rw [pySplit]
    split
    · next hc =>
      have ih := ih [] (by simp)
      rw [List.nil_append] at ih
      split
      · next he => rw [List.isEmpty_iff.1 he]; exact .blank hc ih
      · next he => exact .cons (by simpa [List.isEmpty_iff] using he) h hc ih
    · next hc =>
      have := ih (cur ++ [c]) (by
        intro d hd
        rcases List.mem_append.1 hd with hd | hd
        · exact h d hd
        · rw [List.mem_singleton] at hd; subst hd; simpa using hc)
      simpa using this

theorem tokens_space {sp : Char → Bool} {s : List Char} {ts : List (List Char)} (h : Tokens sp s ts) :
    ∀ t ∈ ts, ∀ c ∈ t, sp c = false := by
  induction h with
  | nil => simp
  | blank _ _ ih => exact ih
  | last _ h => intro t ht; rw [List.mem_singleton] at ht; subst ht; exact h
  | cons _ h _ _ ih =>
    intro t ht
    rcases List.mem_cons.1 ht with rfl | ht
    · exact h
    · exact ih t ht

/-- The rows that words give. -/
def oneEach (ws : List (List Char)) : List CountRow := ws.map fun w => (1, w)

theorem counts_words {rows : List CountRow} {d : PyDict Int} (h : RightCounts rows d) (ws : List (List Char)) :
    RightCounts (rows ++ oneEach ws) (ws.foldl (fun d w => countRow d (1, w)) d) := by
  have := counts_rows h (oneEach ws)
  unfold oneEach at this
  rw [List.foldl_map] at this
  exact this

theorem tot_ones (w : List Char) (ws : List (List Char)) : tot (fun v => decide (v = w)) (oneEach ws) = (ws.count w : Int) := by
  induction ws with
  | nil => rfl
  | cons v ws ih =>
    unfold oneEach at ih ⊢
    rw [List.map_cons, tot_cons, ih, List.count_cons]
    by_cases h : v = w
    · simp [h]; omega
    · simp [h]

theorem count_file {ws : List (List Char)} {d : PyDict Int} (h : RightCounts (oneEach ws) d) : CountFile ws (dumpCounts d) := by
  refine ⟨d.map fun x => (x.2, x.1), ?_, ?_, ?_⟩
  · unfold dumpCounts pyInt
    rw [List.flatMap_map]
  · rw [List.map_map]; exact h.nodup
  · intro n w
    have hm : (n, w) ∈ d.map (fun x => (x.2, x.1)) ↔ (w, n) ∈ d := by
      rw [List.mem_map]
      constructor
      · rintro ⟨⟨a, b⟩, hab, e⟩; cases e; exact hab
      · intro hab; exact ⟨_, hab, rfl⟩
    have hkey : w ∈ d.map (·.1) ↔ w ∈ ws := by
      rw [h.key]
      unfold oneEach
      simp
    have hget := h.getD w
    rw [totalOf_eq (· = w) (fun v => decide (v = w)) (by simp), tot_ones] at hget
    rw [hm, pyMem_iff h.nodup]
    constructor
    · intro hg
      rw [hg] at hget
      exact ⟨hkey.1 (List.mem_map.2 ⟨_, (pyMem_iff h.nodup _ _).2 hg, rfl⟩), hget⟩
    · rintro ⟨h1, h2⟩
      obtain ⟨⟨a, b⟩, hab, e⟩ := List.mem_map.1 (hkey.2 h1)
      have e : a = w := e
      subst e
      have hg := (pyMem_iff h.nodup _ _).1 hab
      rw [hg] at hget
      rw [hg, h2, ← hget]
      rfl

theorem cleaned_all {P : Python} (hW : WordChars P W) (hlf : P.space '\n' = true) {s : List Char} {ts : List (List Char)}
    (h : Tokens P.space s ts) : CleanedAll W ts (ts.map (stripWord W)) := by
  refine ⟨by simp, fun i t w ht hw => ?_⟩
  rw [List.getElem?_map, ht] at hw
  cases hw
  refine stripWord_spec hW.letters hW.dash (hW.space _ hlf) fun hm => ?_
  have := tokens_space h t (List.mem_of_getElem? ht) _ hm
  rw [hlf] at this; cases this

theorem extract_spec {P : Python} (hW : WordChars P W) (hlf : P.space '\n' = true) : ∀ (ds : List Article)
    {st : PyDict Int × PyDict Int} {t0 b0 : List (List Char)}, RightCounts (oneEach t0) st.1 → RightCounts (oneEach b0) st.2 →
    ∃ tw bw, Extracted P W ds tw bw ∧ RightCounts (oneEach (t0 ++ tw)) (ds.foldl (extractStep P W) st).1 ∧
      RightCounts (oneEach (b0 ++ bw)) (ds.foldl (extractStep P W) st).2 := by
  intro ds
  induction ds with
  | nil =>
    intro st t0 b0 h1 h2
    exact ⟨[], [], .nil, by simpa using h1, by simpa using h2⟩
  | cons d ds ih =>
    intro st t0 b0 h1 h2
    rw [List.foldl_cons]
    obtain ⟨dt, db⟩ := d
    have hskip : (dt = none ∨ db = none) → extractStep P W st (dt, db) = st := by
      rintro (rfl | rfl)
      · rfl
      · cases dt <;> rfl
    by_cases hn : dt = none ∨ db = none
    · rw [hskip hn]
      obtain ⟨tw, bw, h3, h4, h5⟩ := ih h1 h2
      exact ⟨tw, bw, .skip hn h3, h4, h5⟩
    · cases dt with
      | none => exact absurd (.inl rfl) hn
      | some t =>
        cases db with
        | none => exact absurd (.inr rfl) hn
        | some b =>
          have k1 : Tokens P.space t (pySplit P [] t) := pySplit_spec P t [] (by simp)
          have k2 : Tokens P.space (stripBody b) (pySplit P [] (stripBody b)) := pySplit_spec P _ [] (by simp)
          have c1 := counts_words h1 ((pySplit P [] t).map (stripWord W))
          have c2 := counts_words h2 ((pySplit P [] (stripBody b)).map (stripWord W))
          unfold oneEach at c1 c2
          rw [← List.map_append] at c1 c2
          obtain ⟨tw, bw, h3, h4, h5⟩ := ih (st := extractStep P W st (some t, some b)) c1 c2
          exact ⟨_, _, .cons k1 (cleaned_all hW hlf k1) (stripBody_spec b) k2 (cleaned_all hW hlf k2) h3,
            by simpa using h4, by simpa using h5⟩

/-! ### Reading it back -/

theorem pyLines_line : ∀ {l cur : List Char} (t : List Char), '\n' ∉ l → '\r' ∉ l →
    pyLines cur (l ++ '\n' :: t) = (cur ++ l) :: pyLines [] t := by
  intro l
  induction l with
  | nil =>
    intro cur t _ _
    rw [List.nil_append, List.append_nil, pyLines]
    · rw [if_pos (.inl rfl)]
    · intro _ e; exact absurd e (by decide)
  | cons c l ih =>
    intro cur t h1 h2
    have hc1 : c ≠ '\n' := fun e => h1 (by simp [e])
    have hc2 : c ≠ '\r' := fun e => h2 (by simp [e])
    rw [List.cons_append, pyLines]
    · rw [if_neg (by simp [hc1, hc2]), ih t (fun h => h1 (by simp [h])) (fun h => h2 (by simp [h]))]
      simp
    · intro _ e; exact absurd e hc2

/-- A row that can be written and read. -/
def RowFits (P : Python) (r : CountRow) : Prop :=
  (∀ c ∈ r.2, c ≠ '\t' ∧ c ≠ '\n' ∧ c ≠ '\r') ∧ P.int (pyInt r.1) = some r.1 ∧ 0 ≤ r.1

theorem pyInt_digits {n : Int} (h : 0 ≤ n) : ∀ c ∈ pyInt n, c.isDigit = true := by
  obtain ⟨m, rfl⟩ := Int.eq_ofNat_of_zero_le h
  intro c hc
  refine digits_digit m c ?_
  have : pyInt (m : Int) = digits m := by
    unfold pyInt digits
    rfl
  rwa [this] at hc

theorem read_back {P : Python} : ∀ (es : PyDict Int), (∀ x ∈ es, RowFits P (x.2, x.1)) →
    (pyLines [] (dumpCounts es)).mapM (rowOfShard P) = .ok (es.map fun x => (x.2, x.1)) := by
  intro es
  induction es with
  | nil => intro _; rfl
  | cons x es ih =>
    intro h
    obtain ⟨w, n⟩ := x
    obtain ⟨h1, h2, h3⟩ := h (w, n) (by simp)
    dsimp only at h1 h2 h3
    have hd := pyInt_digits h3
    have no : ∀ c : Char, c.isDigit = false → c ∉ pyInt n := fun c hc hm => by rw [hd c hm] at hc; cases hc
    have hline : dumpCounts ((w, n) :: es) = (pyInt n ++ '\t' :: w) ++ '\n' :: dumpCounts es := by
      unfold dumpCounts
      rw [List.flatMap_cons]
      simp
    rw [hline, pyLines_line, List.mapM_cons]
    · have hrow : rowOfShard P ([] ++ (pyInt n ++ '\t' :: w)) = .ok (n, w) := by
        unfold rowOfShard
        rw [List.nil_append, splitTab_some.2 ⟨rfl, no '\t' (by decide)⟩]
        dsimp only
        rw [if_neg fun hm => (h1 _ hm).1 rfl, h2]
      rw [hrow, ih fun x hx => h x (by simp [hx])]
      rfl
    · intro hm
      rcases List.mem_append.1 hm with hm | hm
      · exact no _ (by decide) hm
      · rcases List.mem_cons.1 hm with hm | hm
        · exact absurd hm (by decide)
        · exact (h1 _ hm).2.1 rfl
    · intro hm
      rcases List.mem_append.1 hm with hm | hm
      · exact no _ (by decide) hm
      · rcases List.mem_cons.1 hm with hm | hm
        · exact absurd hm (by decide)
        · exact (h1 _ hm).2.2 rfl

end Noodle
