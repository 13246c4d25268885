import Verif.Proofs.Peg
import Verif.Model.Parse
/-
What the nodes of a parse tree look like, for every text: the shapes that the grammar allows, whatever the choices made.
-/
namespace Noodle.Peg
open List
set_option autoImplicit false

/-- What may be left out between two parts: blanks, or a text with the mark of a comment in it. -/
def Skipped (w : List Char) : Prop := (∀ c ∈ w, c = ' ') ∨ "//".toList <:+: w ∨ "--".toList <:+: w

/-- `Derives atomic e u ps`: the parsing expression `e` may take the text `u` and leave the nodes `ps`. -/
inductive Derives : Bool → Exp → List Char → List Pair → Prop
  | chr {at' : Bool} {p : Char → Bool} {c : Char} : p c = true → Derives at' (.chr p) [c] []
  | str {at' : Bool} {s : List Char} : Derives at' (.str s) s []
  | istr {at' : Bool} {s u : List Char} : u.map Char.toLower = s.map Char.toLower → Derives at' (.istr s) u []
  | soi {at' : Bool} : Derives at' .soi [] []
  | eoi {at' : Bool} : Derives at' .eoi [] [.mk .eoi [] []]
  | seq {at' : Bool} {a b : Exp} {u w v : List Char} {ps qs : List Pair} : (at' = true → w = []) ∧ Skipped w →
      Derives at' a u ps → Derives at' b v qs → Derives at' (.seq a b) (u ++ w ++ v) (ps ++ qs)
  | altL {at' : Bool} {a b : Exp} {u : List Char} {ps : List Pair} : Derives at' a u ps → Derives at' (.alt a b) u ps
  | altR {at' : Bool} {a b : Exp} {u : List Char} {ps : List Pair} : Derives at' b u ps → Derives at' (.alt a b) u ps
  | optN {at' : Bool} {a : Exp} : Derives at' (.opt a) [] []
  | optS {at' : Bool} {a : Exp} {u : List Char} {ps : List Pair} : Derives at' a u ps → Derives at' (.opt a) u ps
  | starN {at' : Bool} {a : Exp} : Derives at' (.star a) [] []
  | starS {at' : Bool} {a : Exp} {u v : List Char} {ps qs : List Pair} :
      Derives at' a u ps → Derives at' (.more a) v qs → Derives at' (.star a) (u ++ v) (ps ++ qs)
  | moreN {at' : Bool} {a : Exp} : Derives at' (.more a) [] []
  | moreS {at' : Bool} {a : Exp} {w u v : List Char} {ps qs : List Pair} : (at' = true → w = []) ∧ Skipped w →
      Derives at' a u ps → Derives at' (.more a) v qs → Derives at' (.more a) (w ++ u ++ v) (ps ++ qs)
  | node {at' : Bool} {r : Rule} {u : List Char} {ps : List Pair} :
      Derives (at' || (grammar (.vis r)).1) (grammar (.vis r)).2 u ps →
      Derives at' (.ref (.vis r)) u [.mk r u (if (grammar (.vis r)).1 then [] else ps)]
  | silent {at' : Bool} {m : Name} {u : List Char} {ps : List Pair} : (∀ r, m ≠ .vis r) →
      Derives (at' || (grammar m).1) (grammar m).2 u ps → Derives at' (.ref m) u ps

theorem stripPrefix_eq : ∀ (s l r : List Char), stripPrefix (· == ·) s l = some r → l = s ++ r
  | [], l, r, h => by simp [stripPrefix] at h; subst h; rfl
  | _ :: _, [], r, h => by simp [stripPrefix] at h
  | c :: cs, d :: ds, r, h => by
    unfold stripPrefix at h
    split at h
    · next hcd =>
      have := stripPrefix_eq cs ds r h
      simp only [beq_iff_eq] at hcd
      subst hcd
      rw [this]; rfl
    · cases h

theorem stripPrefix_split : ∀ (s l r : List Char),
    stripPrefix (fun a b => a.toLower == b.toLower) s l = some r →
    ∃ u, l = u ++ r ∧ u.map Char.toLower = s.map Char.toLower
  | [], l, r, h => by simp [stripPrefix] at h; subst h; exact ⟨[], rfl, rfl⟩
  | _ :: _, [], r, h => by simp [stripPrefix] at h
  | c :: cs, d :: ds, r, h => by
    unfold stripPrefix at h
    split at h
    · rename_i hcd
      obtain ⟨u, hu, hl⟩ := stripPrefix_split cs ds r h
      have hcd : c.toLower = d.toLower := by simpa using hcd
      exact ⟨d :: u, by rw [hu]; rfl, by simp [hl, hcd]⟩
    · cases h

theorem skip_split (l : List Char) : ∃ w, l = w ++ skip l ∧ Skipped w := by
  unfold skip
  simp only
  cases h : comment (l.dropWhile (· == ' ')) with
  | none =>
    refine ⟨l.takeWhile (· == ' '), by simp, .inl fun c hc => ?_⟩
    have := List.all_takeWhile (p := (· == ' ')) (l := l)
    simpa using List.all_eq_true.1 this c hc
  | some r =>
    refine ⟨l, by rw [comment_nil _ _ h]; simp, .inr ?_⟩
    have hsuf : l.dropWhile (· == ' ') <:+ l := List.dropWhile_suffix _
    unfold comment at h
    cases h1 : stripPrefix (· == ·) "//".toList (l.dropWhile (· == ' ')) with
    | some r1 =>
      have e := stripPrefix_eq _ _ _ h1
      exact .inl (List.IsInfix.trans ⟨[], r1, by rw [e]; rfl⟩ hsuf.isInfix)
    | none =>
      cases h2 : stripPrefix (· == ·) "--".toList (l.dropWhile (· == ' ')) with
      | some r1 =>
        have e := stripPrefix_eq _ _ _ h2
        exact .inr (List.IsInfix.trans ⟨[], r1, by rw [e]; rfl⟩ hsuf.isInfix)
      | none => rw [h1, h2] at h; cases h

/-- What the parser returns is allowed by the grammar. -/
theorem run_derives (total : Nat) : ∀ (n : Nat) (at' : Bool) (e : Exp) (l l' : List Char) (ps : List Pair),
    run grammar total n at' e l = some (some (ps, l')) → ∃ u, l = u ++ l' ∧ Derives at' e u ps := by
  intro n
  induction n with
  | zero => intro at' e l l' ps h; simp [run] at h
  | succ n ih =>
    intro at' e l l' ps h
    have hskip : ∀ l1 : List Char, ∃ w, l1 = w ++ (if at' then l1 else skip l1) ∧ (at' = true → w = []) ∧ Skipped w := by
      intro l1
      cases at' with
      | true => exact ⟨[], rfl, fun _ => rfl, .inl (by simp)⟩
      | false =>
        obtain ⟨w, hw, hs⟩ := skip_split l1
        exact ⟨w, by simpa using hw, (fun h => by cases h), hs⟩
    have hmore : ∀ (a : Exp) (l1 : List Char) (ps1 : List Pair),
        (run grammar total n at' (.more a) l1).map (fun rb => rb.map fun q => (ps1 ++ q.1, q.2)) = some (some (ps, l')) →
        ∃ v qs, l1 = v ++ l' ∧ Derives at' (.more a) v qs ∧ ps = ps1 ++ qs := by
      intro a l1 ps1 h
      cases hb : run grammar total n at' (.more a) l1 with
      | none => simp [hb] at h
      | some rb =>
        cases rb with
        | none => simp [hb] at h
        | some q =>
          obtain ⟨qs, l2⟩ := q
          simp only [hb, Option.map_some, Option.some.injEq, Prod.mk.injEq] at h
          obtain ⟨h1, h2⟩ := h
          subst h2
          obtain ⟨v, hv, hd⟩ := ih _ _ _ _ _ hb
          exact ⟨v, qs, hv, hd, h1.symm⟩
    cases e with
    | chr p =>
      simp only [run] at h
      cases l with
      | nil => simp at h
      | cons c cs =>
        simp only at h
        split at h
        · next hp =>
          simp only [Option.some.injEq, Prod.mk.injEq] at h
          obtain ⟨rfl, rfl⟩ := h
          exact ⟨[c], rfl, .chr hp⟩
        · simp at h
    | str s =>
      simp only [run, Option.some.injEq, Option.map_eq_some_iff, Prod.mk.injEq] at h
      obtain ⟨r, hr, rfl, rfl⟩ := h
      exact ⟨s, stripPrefix_eq _ _ _ hr, .str⟩
    | istr s =>
      simp only [run, Option.some.injEq, Option.map_eq_some_iff, Prod.mk.injEq] at h
      obtain ⟨r, hr, rfl, rfl⟩ := h
      obtain ⟨u, hu, hl⟩ := stripPrefix_split _ _ _ hr
      exact ⟨u, hu, .istr hl⟩
    | soi =>
      simp only [run, Option.some.injEq] at h
      split at h
      · simp only [Option.some.injEq, Prod.mk.injEq] at h
        obtain ⟨rfl, rfl⟩ := h
        exact ⟨[], rfl, .soi⟩
      · cases h
    | eoi =>
      simp only [run, Option.some.injEq] at h
      split at h
      · simp only [Option.some.injEq, Prod.mk.injEq] at h
        obtain ⟨rfl, rfl⟩ := h
        exact ⟨[], rfl, .eoi⟩
      · cases h
    | seq a b =>
      simp only [run] at h
      cases ha : run grammar total n at' a l with
      | none => simp [ha] at h
      | some ra =>
        cases ra with
        | none => simp [ha] at h
        | some q =>
          obtain ⟨ps1, l1⟩ := q
          simp only [ha, Option.bind_some] at h
          obtain ⟨w, hw, hat⟩ := hskip l1
          cases hb : run grammar total n at' b (if at' then l1 else skip l1) with
          | none => simp [hb] at h
          | some rb =>
            cases rb with
            | none => simp [hb] at h
            | some q =>
              obtain ⟨qs, l2⟩ := q
              simp only [hb, Option.map_some, Option.some.injEq, Prod.mk.injEq] at h
              obtain ⟨rfl, rfl⟩ := h
              obtain ⟨u, hu, hd⟩ := ih _ _ _ _ _ ha
              obtain ⟨v, hv, hd'⟩ := ih _ _ _ _ _ hb
              refine ⟨u ++ w ++ v, ?_, .seq hat hd hd'⟩
              rw [hu, hw, hv]
              simp
    | alt a b =>
      simp only [run] at h
      cases ha : run grammar total n at' a l with
      | none => simp [ha] at h
      | some ra =>
        cases ra with
        | none =>
          simp only [ha, Option.bind_some] at h
          obtain ⟨u, hu, hd⟩ := ih _ _ _ _ _ h
          exact ⟨u, hu, .altR hd⟩
        | some q =>
          simp only [ha, Option.bind_some, Option.some.injEq] at h
          subst h
          obtain ⟨u, hu, hd⟩ := ih _ _ _ _ _ ha
          exact ⟨u, hu, .altL hd⟩
    | opt a =>
      simp only [run] at h
      cases ha : run grammar total n at' a l with
      | none => simp [ha] at h
      | some ra =>
        cases ra with
        | none =>
          simp only [ha, Option.map_some, Option.getD_none, Option.some.injEq, Prod.mk.injEq] at h
          obtain ⟨rfl, rfl⟩ := h
          exact ⟨[], rfl, .optN⟩
        | some q =>
          simp only [ha, Option.map_some, Option.getD_some, Option.some.injEq] at h
          subst h
          obtain ⟨u, hu, hd⟩ := ih _ _ _ _ _ ha
          exact ⟨u, hu, .optS hd⟩
    | star a =>
      simp only [run] at h
      cases ha : run grammar total n at' a l with
      | none => simp [ha] at h
      | some ra =>
        cases ra with
        | none =>
          simp only [ha, Option.bind_some, Option.some.injEq, Prod.mk.injEq] at h
          obtain ⟨rfl, rfl⟩ := h
          exact ⟨[], rfl, .starN⟩
        | some q =>
          obtain ⟨ps1, l1⟩ := q
          simp only [ha, Option.bind_some] at h
          obtain ⟨u, hu, hd⟩ := ih _ _ _ _ _ ha
          obtain ⟨v, qs, hv, hd', rfl⟩ := hmore a l1 ps1 h
          exact ⟨u ++ v, by rw [hu, hv]; simp, .starS hd hd'⟩
    | more a =>
      simp only [run] at h
      obtain ⟨w, hw, hat⟩ := hskip l
      cases ha : run grammar total n at' a (if at' then l else skip l) with
      | none => simp [ha] at h
      | some ra =>
        cases ra with
        | none =>
          simp only [ha, Option.bind_some, Option.some.injEq, Prod.mk.injEq] at h
          obtain ⟨rfl, rfl⟩ := h
          exact ⟨[], rfl, .moreN⟩
        | some q =>
          obtain ⟨ps1, l1⟩ := q
          simp only [ha, Option.bind_some] at h
          obtain ⟨u, hu, hd⟩ := ih _ _ _ _ _ ha
          obtain ⟨v, qs, hv, hd', rfl⟩ := hmore a l1 ps1 h
          refine ⟨w ++ u ++ v, ?_, .moreS hat hd hd'⟩
          rw [hw, hu, hv]; simp
    | ref m =>
      simp only [run] at h
      cases ha : run grammar total n (at' || (grammar m).1) (grammar m).2 l with
      | none => simp [ha] at h
      | some ra =>
        cases ra with
        | none => cases m <;> simp [ha] at h
        | some q =>
          obtain ⟨ps1, l1⟩ := q
          obtain ⟨u, hu, hd⟩ := ih _ _ _ _ _ ha
          cases m with
          | vis r =>
            simp only [ha, Option.map_some, Option.some.injEq, Prod.mk.injEq] at h
            obtain ⟨rfl, rfl⟩ := h
            refine ⟨u, hu, ?_⟩
            have : l.take (l.length - l1.length) = u := by rw [hu]; simp
            rw [this]
            exact .node hd
          | _ =>
            simp only [ha, Option.map_some, Option.some.injEq, Prod.mk.injEq] at h
            obtain ⟨rfl, rfl⟩ := h
            exact ⟨u, hu, .silent (by intro r hr; cases hr) hd⟩

/-- The tree of a parsed text. -/
theorem parse_derives {r : Rule} {l : List Char} {p : Pair} (h : parse r l = some (some p)) :
    ∃ u v, l = u ++ v ∧ Derives false (.ref (.vis r)) u [p] := by
  unfold parse at h
  cases hr : run grammar l.length (fuelFor l) false (node r) l with
  | none => simp [hr] at h
  | some res =>
    cases res with
    | none => simp [hr] at h
    | some q =>
      obtain ⟨ps, l1⟩ := q
      obtain ⟨u, hu, hd⟩ := run_derives _ _ _ _ _ _ _ hr
      refine ⟨u, l1, hu, ?_⟩
      have hd' := hd
      unfold Peg.node at hd'
      simp only [hr, Option.map_some, Option.bind_some, Option.some.injEq] at h
      cases hd' with
      | node hx =>
        simp only [List.head?_cons, Option.some.injEq] at h
        subst h
        exact hd
      | silent hn _ => exact absurd rfl (hn r)

/-! ### Inversion -/

theorem derives_seq {at' : Bool} {a b : Exp} {u : List Char} {ps : List Pair} (h : Derives at' (.seq a b) u ps) :
    ∃ x w y qs rs, ((at' = true → w = []) ∧ Skipped w) ∧ u = x ++ w ++ y ∧ ps = qs ++ rs ∧ Derives at' a x qs ∧ Derives at' b y rs := by
  cases h with
  | seq hw h1 h2 => exact ⟨_, _, _, _, _, hw, rfl, rfl, h1, h2⟩

theorem derives_str {at' : Bool} {s u : List Char} {ps : List Pair} (h : Derives at' (.str s) u ps) : u = s ∧ ps = [] := by
  cases h; exact ⟨rfl, rfl⟩

theorem derives_lit {at' : Bool} {s : String} {u : List Char} {ps : List Pair} (h : Derives at' (lit s) u ps) :
    u = s.toList ∧ ps = [] := derives_str h

theorem derives_istr {at' : Bool} {s u : List Char} {ps : List Pair} (h : Derives at' (.istr s) u ps) : ps = [] := by
  cases h; rfl

theorem derives_soi {at' : Bool} {u : List Char} {ps : List Pair} (h : Derives at' .soi u ps) : u = [] ∧ ps = [] := by
  cases h; exact ⟨rfl, rfl⟩

theorem derives_eoi {at' : Bool} {u : List Char} {ps : List Pair} (h : Derives at' .eoi u ps) :
    u = [] ∧ ps = [.mk .eoi [] []] := by
  cases h; exact ⟨rfl, rfl⟩

theorem derives_chr {at' : Bool} {p : Char → Bool} {u : List Char} {ps : List Pair} (h : Derives at' (.chr p) u ps) :
    ∃ c, p c = true ∧ u = [c] ∧ ps = [] := by
  cases h with
  | chr hp => exact ⟨_, hp, rfl, rfl⟩

theorem derives_alt {at' : Bool} {a b : Exp} {u : List Char} {ps : List Pair} (h : Derives at' (.alt a b) u ps) :
    Derives at' a u ps ∨ Derives at' b u ps := by
  cases h with
  | altL h => exact Or.inl h
  | altR h => exact Or.inr h

theorem derives_node {at' : Bool} {r : Rule} {u : List Char} {ps : List Pair} (h : Derives at' (Peg.node r) u ps) :
    ∃ qs, ps = [.mk r u (if (grammar (.vis r)).1 then [] else qs)] ∧
      Derives (at' || (grammar (.vis r)).1) (grammar (.vis r)).2 u qs := by
  unfold Peg.node at h
  cases h with
  | node h => exact ⟨_, rfl, h⟩
  | silent hn _ => exact absurd rfl (hn r)

theorem derives_silent {at' : Bool} {m : Name} {u : List Char} {ps : List Pair} (h : Derives at' (.ref m) u ps)
    (hm : ∀ r, m ≠ .vis r) : Derives (at' || (grammar m).1) (grammar m).2 u ps := by
  cases h with
  | node h => exact absurd rfl (hm _)
  | silent _ h => exact h

theorem derives_choices {at' : Bool} {l : List Exp} {u : List Char} {ps : List Pair} (h : Derives at' (choices l) u ps) :
    ∃ e ∈ l, Derives at' e u ps := by
  induction l with
  | nil =>
    obtain ⟨c, hc, _⟩ := derives_chr h
    cases hc
  | cons a l ih =>
    cases l with
    | nil => exact ⟨a, by simp, h⟩
    | cons b l =>
      rcases derives_alt h with h | h
      · exact ⟨a, by simp, h⟩
      · obtain ⟨e, he, hd⟩ := ih h
        exact ⟨e, by simp [he], hd⟩

/-- A property of all nodes that an expression leaves holds for the nodes its repetition leaves; and of the texts. -/
theorem derives_more {at' : Bool} {a : Exp} {P : Pair → Prop}
    (ha : ∀ u ps, Derives at' a u ps → ∀ p ∈ ps, P p) {u : List Char} {ps : List Pair}
    (h : Derives at' (.more a) u ps) : ∀ p ∈ ps, P p := by
  generalize he : Exp.more a = e at h
  induction h with
  | moreN => simp
  | moreS _ h1 _ _ ih2 =>
    cases he
    intro p hp
    rcases List.mem_append.1 hp with hp | hp
    · exact ha _ _ h1 p hp
    · exact ih2 ha rfl p hp
  | _ => cases he

theorem derives_star {at' : Bool} {a : Exp} {P : Pair → Prop}
    (ha : ∀ u ps, Derives at' a u ps → ∀ p ∈ ps, P p) {u : List Char} {ps : List Pair}
    (h : Derives at' (.star a) u ps) : ∀ p ∈ ps, P p := by
  cases h with
  | starN => simp
  | starS h1 h2 =>
    intro p hp
    rcases List.mem_append.1 hp with hp | hp
    · exact ha _ _ h1 p hp
    · exact derives_more ha h2 p hp

theorem derives_plus {at' : Bool} {a : Exp} {P : Pair → Prop}
    (ha : ∀ u ps, Derives at' a u ps → ∀ p ∈ ps, P p) {u : List Char} {ps : List Pair}
    (h : Derives at' a.plus u ps) : ∀ p ∈ ps, P p := by
  obtain ⟨_, _, _, qs, rs, _, _, rfl, h1, h2⟩ := derives_seq h
  intro p hp
  rcases List.mem_append.1 hp with hp | hp
  · exact ha _ _ h1 p hp
  · exact derives_star ha h2 p hp

/-- Texts of an atomic repetition of a character class. -/
theorem derives_digits {u : List Char} {ps : List Pair} (h : Derives true digitChar.plus u ps) :
    u ≠ [] ∧ u.all Char.isDigit = true := by
  have hmore : ∀ {at' : Bool} {u : List Char} {ps : List Pair}, at' = true → Derives at' (.more digitChar) u ps →
      u.all Char.isDigit = true := by
    intro at' u ps ha h
    generalize he : Exp.more digitChar = e at h
    induction h with
    | moreN => rfl
    | moreS hw h1 _ _ ih2 =>
      cases he
      subst ha
      obtain ⟨c, hc, rfl, _⟩ := derives_chr h1
      have := ih2 rfl rfl
      rw [hw.1 rfl]
      simp [hc] at this ⊢
      exact this
    | _ => cases he
  obtain ⟨x, w, y, _, _, hw, rfl, rfl, h1, h2⟩ := derives_seq h
  obtain ⟨c, hc, rfl, _⟩ := derives_chr h1
  rw [hw.1 rfl]
  refine ⟨by simp, ?_⟩
  cases h2 with
  | starN => simpa using hc
  | starS h3 h4 =>
    obtain ⟨d, hd, rfl, _⟩ := derives_chr h3
    have := hmore rfl h4
    simp [hc, hd] at this ⊢
    exact this

/-! ### Every node -/

/-- The node is one the grammar allows, or marks the end of the text. -/
def Lawful (p : Pair) : Prop :=
  p = .mk .eoi [] [] ∨ ∃ at' qs, p.inner = (if (grammar (.vis p.rule)).1 then [] else qs) ∧
    Derives (at' || (grammar (.vis p.rule)).1) (grammar (.vis p.rule)).2 p.text qs

/-- The nodes an expression leaves are lawful (or mark the end of the text), and their texts are parts of its text. -/
theorem derives_nodes {at' : Bool} {e : Exp} {u : List Char} {ps : List Pair} (h : Derives at' e u ps) :
    ∀ p ∈ ps, Lawful p ∧ p.text <:+: u := by
  induction h with
  | chr | str | istr | soi | optN | starN | moreN => simp
  | eoi =>
    intro p hp
    rw [List.mem_singleton] at hp
    subst hp
    exact ⟨Or.inl rfl, List.infix_rfl⟩
  | @seq _ _ _ u w v _ _ _ _ _ ih1 ih2 =>
    intro p hp
    rcases List.mem_append.1 hp with hp | hp
    · obtain ⟨a, b⟩ := ih1 p hp
      exact ⟨a, b.trans ⟨[], w ++ v, by simp⟩⟩
    · obtain ⟨a, b⟩ := ih2 p hp
      exact ⟨a, b.trans ⟨u ++ w, [], by simp⟩⟩
  | altL _ ih | altR _ ih | optS _ ih => exact ih
  | @starS _ _ u v _ _ _ _ ih1 ih2 =>
    intro p hp
    rcases List.mem_append.1 hp with hp | hp
    · obtain ⟨a, b⟩ := ih1 p hp
      exact ⟨a, b.trans ⟨[], v, by simp⟩⟩
    · obtain ⟨a, b⟩ := ih2 p hp
      exact ⟨a, b.trans ⟨u, [], by simp⟩⟩
  | @moreS _ _ w u v _ _ _ _ _ ih1 ih2 =>
    intro p hp
    rcases List.mem_append.1 hp with hp | hp
    · obtain ⟨a, b⟩ := ih1 p hp
      exact ⟨a, b.trans ⟨w, v, by simp⟩⟩
    · obtain ⟨a, b⟩ := ih2 p hp
      exact ⟨a, b.trans ⟨w ++ u, [], by simp⟩⟩
  | node h _ =>
    intro p hp
    rw [List.mem_singleton] at hp
    subst hp
    exact ⟨Or.inr ⟨_, _, rfl, h⟩, List.infix_rfl⟩
  | silent _ _ ih => exact ih

theorem Lawful.inner {p q : Pair} (h : Lawful p) (hq : q ∈ p.inner) : Lawful q ∧ q.text <:+: p.text := by
  rcases h with rfl | ⟨at', qs, h1, h2⟩
  · cases hq
  rw [h1] at hq
  split at hq
  · simp at hq
  · exact derives_nodes h2 q hq

end Noodle.Peg
