import Verif.Model.Menu
import Verif.Props.C53
import Verif.Props.C61
/-
C66: choosing a dictionary on the web page.
-/
namespace Noodle
open Spec
set_option autoImplicit false

/-! ### The order -/

theorem insertLong_perm (x : List Char × Nat) : ∀ l, (insertLong x l).Perm (x :: l)
  | [] => .refl _
  | y :: l => by
    rw [insertLong]
    split
    · exact .refl _
    · exact ((insertLong_perm x l).cons y).trans (.swap x y l)

theorem sortLong_perm : ∀ l, (sortLong l).Perm l
  | [] => .refl _
  | x :: l => (insertLong_perm x _).trans ((sortLong_perm l).cons x)

theorem insertLong_sorted {x : List Char × Nat} : ∀ {l : List (List Char × Nat)}, l.Pairwise (fun a b => b.2 ≤ a.2) →
    (insertLong x l).Pairwise fun a b => b.2 ≤ a.2
  | [], _ => List.pairwise_singleton _ _
  | y :: l, h => by
    have h' := List.pairwise_cons.1 h
    rw [insertLong]
    split
    · rename_i hle
      refine List.pairwise_cons.2 ⟨fun z hz => ?_, h⟩
      rcases List.mem_cons.1 hz with rfl | hz
      · exact hle
      · exact Nat.le_trans (h'.1 z hz) hle
    · rename_i hle
      refine List.pairwise_cons.2 ⟨fun z hz => ?_, insertLong_sorted h'.2⟩
      rcases List.mem_cons.1 ((insertLong_perm x l).mem_iff.1 hz) with rfl | hz
      · omega
      · exact h'.1 z hz

theorem sortLong_sorted : ∀ l, (sortLong l).Pairwise fun a b => b.2 ≤ a.2
  | [] => .nil
  | x :: l => insertLong_sorted (sortLong_sorted l)

/-! ### The options -/

theorem keepFirst_values (os : List MenuOption) :
    (settle.keepFirst os).map (fun o => (o.label, o.value)) = os.map fun o => (o.label, o.value) := by
  induction os with
  | nil => rfl
  | cons o os ih =>
    rw [settle.keepFirst]
    split
    · simp
    · rw [List.map_cons, ih, List.map_cons]

theorem settle_values (os : List MenuOption) :
    (settle os).map (fun o => (o.label, o.value)) = os.map fun o => (o.label, o.value) := by
  unfold settle
  split
  · split
    · rename_i h
      rw [List.reverse_eq_nil_iff.1 h]
    · rw [List.map_reverse, keepFirst_values, ← List.map_reverse, List.reverse_reverse]
  · split <;> rfl

/-- What the option of a list says. -/
def entryOf (wl : List Char × Nat) : List Char × List Char :=
  (wl.1 ++ " (".toList ++ (toString wl.2).toList ++ ")".toList, wl.1)

theorem fill_values : ∀ (l : List (List Char × Nat)) (os : List MenuOption),
    (fillMenu os l).map (fun o => (o.label, o.value)) = os.map (fun o => (o.label, o.value)) ++ l.map entryOf
  | [], os => by simp [fillMenu]
  | wl :: l, os => by
    rw [fillMenu, fill_values l, settle_values, List.map_append, List.append_assoc]
    rfl

/-- Exactly one is selected, this one. -/
def Picked (os : List MenuOption) (v : List Char) : Prop :=
  ∃ a o b, os = a ++ o :: b ∧ o.selected = true ∧ o.value = v ∧ (∀ x ∈ a, x.selected = false) ∧ ∀ x ∈ b, x.selected = false

theorem picked_value {os : List MenuOption} {v : List Char} (h : Picked os v) : menuValue os = v := by
  obtain ⟨a, o, b, rfl, h1, h2, h3, _⟩ := h
  have : (a ++ o :: b).find? MenuOption.selected = some o := by
    rw [List.find?_append, List.find?_eq_none.2 fun x hx => by rw [h3 x hx]; simp, Option.none_or,
      List.find?_cons_of_pos h1]
  unfold menuValue
  rw [this, ← h2]

theorem keepFirst_unselected {os r : List MenuOption} (h : ∀ x ∈ os, x.selected = false) :
    settle.keepFirst (os ++ r) = os ++ settle.keepFirst r := by
  induction os with
  | nil => rfl
  | cons o os ih =>
    rw [List.cons_append, settle.keepFirst, if_neg (by rw [h o (by simp)]; simp),
      ih fun x hx => h x (List.mem_cons_of_mem _ hx), List.cons_append]

theorem unselect_id {os : List MenuOption} (h : ∀ x ∈ os, x.selected = false) :
    os.map (fun o => { o with selected := false }) = os := by
  conv_rhs => rw [← List.map_id os]
  apply List.map_congr_left
  intro o ho
  have := h o ho
  cases o
  simp_all

/-- The last one of those selected is kept. -/
theorem settle_last {a b : List MenuOption} {o : MenuOption} (ho : o.selected = true) (hb : ∀ x ∈ b, x.selected = false) :
    settle (a ++ o :: b) = a.map (fun o => { o with selected := false }) ++ o :: b := by
  unfold settle
  rw [if_pos (by simp [ho])]
  have hr : (a ++ o :: b).reverse = b.reverse ++ o :: a.reverse := by simp
  rw [hr]
  split
  · rename_i h
    simp at h
  · rw [keepFirst_unselected fun x hx => hb x (List.mem_reverse.1 hx), settle.keepFirst, if_pos ho]
    simp [List.map_reverse]

theorem settle_none {o : MenuOption} {os : List MenuOption} (h : ∀ x ∈ o :: os, x.selected = false) :
    settle (o :: os) = { o with selected := true } :: os := by
  unfold settle
  rw [if_neg (by
    rw [List.any_eq_true]
    rintro ⟨x, hx, hs⟩
    rw [h x hx] at hs
    cases hs)]

theorem settle_picked {os : List MenuOption} {v : List Char} {opt : MenuOption} (h : Picked os v) :
    Picked (settle (os ++ [opt])) (if opt.selected then opt.value else v) := by
  cases hs : opt.selected with
  | true =>
    rw [settle_last hs (by simp)]
    refine ⟨_, opt, [], rfl, hs, rfl, ?_, by simp⟩
    intro x hx
    obtain ⟨y, _, rfl⟩ := List.mem_map.1 hx
    rfl
  | false =>
    obtain ⟨a, o, b, rfl, h1, h2, h3, h4⟩ := h
    have hb : ∀ x ∈ b ++ [opt], x.selected = false := by
      intro x hx
      rcases List.mem_append.1 hx with hx | hx
      · exact h4 x hx
      · rw [List.mem_singleton.1 hx]; exact hs
    rw [List.append_assoc, List.cons_append, settle_last h1 hb, unselect_id h3]
    exact ⟨a, o, _, rfl, h1, h2, h3, hb⟩

theorem fill_picked : ∀ (l : List (List Char × Nat)) (os : List MenuOption) (v : List Char), Picked os v →
    Picked (fillMenu os l) (if "default".toList ∈ l.map Prod.fst then "default".toList else v)
  | [], os, v, h => by simpa [fillMenu] using h
  | wl :: l, os, v, h => by
    rw [fillMenu]
    have h1 := fill_picked l _ _ (settle_picked
      (opt := ⟨wl.1 ++ " (".toList ++ (toString wl.2).toList ++ ")".toList, wl.1, wl.1 == "default".toList⟩) h)
    rw [List.map_cons]
    by_cases hw : wl.1 = "default".toList
    · rw [if_pos (by rw [hw]; exact List.mem_cons_self ..)]
      simp only [hw, beq_self_eq_true, if_true, ite_self] at h1
      simpa only [hw, beq_self_eq_true] using h1
    · have hw' : (wl.1 == "default".toList) = false := by simpa using hw
      simp only [hw', Bool.false_eq_true, if_false] at h1
      simp only [hw']
      have : ("default".toList ∈ wl.1 :: l.map Prod.fst) ↔ "default".toList ∈ l.map Prod.fst := by
        rw [List.mem_cons]
        exact ⟨fun h => h.resolve_left fun h => hw h.symm, .inr⟩
      simp only [this]
      exact h1

theorem menu_picked {lists : List (List Char × Nat)} {x : List Char × Nat} {l : List (List Char × Nat)}
    (h : sortLong lists = x :: l) :
    menuValue (menu lists) = if "default".toList ∈ lists.map Prod.fst then "default".toList else x.1 := by
  have hp := sortLong_perm lists
  rw [h] at hp
  unfold menu
  rw [h, fillMenu]
  apply picked_value
  have h0 : Picked (settle ([] ++ [⟨x.1 ++ " (".toList ++ (toString x.2).toList ++ ")".toList, x.1, x.1 == "default".toList⟩])) x.1 := by
    rw [List.nil_append]
    cases hx : (x.1 == "default".toList) with
    | true =>
      have := settle_last (a := []) (b := [])
        (o := ⟨x.1 ++ " (".toList ++ (toString x.2).toList ++ ")".toList, x.1, true⟩) rfl (by simp)
      rw [List.nil_append] at this
      rw [this]
      exact ⟨[], _, [], rfl, rfl, rfl, by simp, by simp⟩
    | false =>
      rw [settle_none (by simp)]
      exact ⟨[], _, [], rfl, rfl, rfl, by simp, by simp⟩
  have h1 := fill_picked l _ _ h0
  have hm : "default".toList ∈ lists.map Prod.fst ↔ x.1 = "default".toList ∨ "default".toList ∈ l.map Prod.fst := by
    rw [(hp.map Prod.fst).mem_iff.symm, List.map_cons, List.mem_cons, eq_comm]
  by_cases hx : x.1 = "default".toList
  · rw [if_pos (hm.2 (.inl hx))]
    rw [hx, ite_self] at h1
    rw [hx]; exact h1
  · have : "default".toList ∈ lists.map Prod.fst ↔ "default".toList ∈ l.map Prod.fst :=
      hm.trans ⟨fun h => h.resolve_left hx, .inr⟩
    simp only [this]
    exact h1

/-! ### The claims -/

/-- C66: the menu of the page, which it makes from the script of the server, has an option for each dictionary, and no other:
each says the name and the number of words and stands for the name. The longest list is first. -/
theorem C66_menu {U : Unicode} {dir : List DirEntry} (hd : PlainDir dir) {ds : Dicts} (hp : ds.Perm (loadDir U [] dir))
    {lists : List (List Char × Nat)} (hl : ListsScript (wordlistJs ds) lists) :
    ∃ sorted : List (List Char × Nat),
      (menu lists).map MenuOption.value = sorted.map Prod.fst ∧
      (menu lists).map MenuOption.label = sorted.map (fun x => x.1 ++ " (".toList ++ (toString x.2).toList ++ ")".toList) ∧
      (sorted.map Prod.fst).Nodup ∧ sorted.Pairwise (fun a b => b.2 ≤ a.2) ∧
      ∀ name n, (name, n) ∈ sorted ↔ ∃ ws, HasDict U dir name ws ∧ ws.length = n := by
  obtain ⟨sizes, h1, h2, h3⟩ := C53_script hd hp
  obtain rfl := (h1 lists).1 hl
  have hv := fill_values (sortLong lists) []
  refine ⟨sortLong lists, ?_, ?_, ((sortLong_perm lists).map _).nodup_iff.2 h2, sortLong_sorted lists, fun name n => ?_⟩
  · have := congrArg (List.map Prod.snd) hv
    rw [List.map_nil, List.nil_append, List.map_map, List.map_map] at this
    exact this
  · have := congrArg (List.map Prod.fst) hv
    rw [List.map_nil, List.nil_append, List.map_map, List.map_map] at this
    exact this
  · rw [(sortLong_perm lists).mem_iff]; exact h3 name n

/-- C66: when the page has been loaded, `default` is chosen if there is such a dictionary; if not, one with as many words as any.
-/
theorem C66_initial {U : Unicode} {dir : List DirEntry} (hd : PlainDir dir) {ds : Dicts} (hp : ds.Perm (loadDir U [] dir))
    {lists : List (List Char × Nat)} (hl : ListsScript (wordlistJs ds) lists) :
    ((∃ ws, HasDict U dir "default".toList ws) → menuValue (menu lists) = "default".toList) ∧
    ((∀ ws, ¬ HasDict U dir "default".toList ws) → (∃ name ws, HasDict U dir name ws) →
      ∃ ws, HasDict U dir (menuValue (menu lists)) ws ∧ ∀ name ws', HasDict U dir name ws' → ws'.length ≤ ws.length) := by
  obtain ⟨sizes, h1, h2, h3⟩ := C53_script hd hp
  obtain rfl := (h1 lists).1 hl
  have hdef : "default".toList ∈ lists.map Prod.fst ↔ ∃ ws, HasDict U dir "default".toList ws := by
    rw [List.mem_map]
    constructor
    · rintro ⟨⟨a, n⟩, hm, rfl⟩
      obtain ⟨ws, h4, _⟩ := (h3 _ n).1 hm
      exact ⟨ws, h4⟩
    · rintro ⟨ws, h4⟩
      exact ⟨(_, ws.length), (h3 _ _).2 ⟨ws, h4, rfl⟩, rfl⟩
  have hne : ∀ {name ws}, HasDict U dir name ws → ∃ x l, sortLong lists = x :: l := by
    intro name ws h
    have hm := (sortLong_perm lists).mem_iff.2 ((h3 name ws.length).2 ⟨ws, h, rfl⟩)
    cases hs : sortLong lists with
    | nil => rw [hs] at hm; cases hm
    | cons x l => exact ⟨x, l, rfl⟩
  constructor
  · intro h
    obtain ⟨x, l, hs⟩ := hne h.choose_spec
    rw [menu_picked hs, if_pos (hdef.2 h)]
  · rintro hno ⟨name, ws, h⟩
    obtain ⟨x, l, hs⟩ := hne h
    rw [menu_picked hs, if_neg fun hm => (hdef.1 hm).elim hno]
    have hmem : ∀ y, y ∈ lists ↔ y ∈ x :: l := fun y => by rw [← hs]; exact (sortLong_perm lists).mem_iff.symm
    have hx := (h3 x.1 x.2).1 ((hmem x).2 (by simp))
    obtain ⟨ws0, h4, h5⟩ := hx
    refine ⟨ws0, h4, fun name' ws' h6 => ?_⟩
    have h7 := (hmem _).1 ((h3 name' ws'.length).2 ⟨ws', h6, rfl⟩)
    have hsort := sortLong_sorted lists
    rw [hs] at hsort
    rcases List.mem_cons.1 h7 with h7 | h7
    · have : ws'.length = x.2 := by rw [← h7]
      omega
    · have := (List.pairwise_cons.1 hsort).1 _ h7
      have : ws'.length ≤ x.2 := this
      omega

theorem dict_ok {name : List Char} (hne : name ≠ []) (hc : ∀ c ∈ name, dictChar c = true ∨ c = '-')
    (hn : noComment name = true) : (Line.dict 0 "#dict".toList 1 name 0).ok = true := by
  simp only [Line.ok, Bool.and_eq_true]
  refine ⟨⟨⟨by decide +kernel, ?_⟩, ?_⟩, hn⟩
  · cases name with
    | nil => exact absurd rfl hne
    | cons c l =>
      rw [List.any_cons, Bool.or_eq_true]
      left
      rcases hc c (by simp) with h | rfl
      · rw [bne_iff_ne]
        rintro rfl
        revert h; decide
      · decide
  · rw [List.all_eq_true]
    intro c hm
    rcases hc c hm with h | rfl
    · simp only [dictChar, plainChar, Bool.or_eq_true] at h ⊢
      tauto
    · rfl

theorem noComment_dict : ∀ {name : List Char}, (∀ c ∈ name, dictChar c = true) → noComment name = true
  | [], _ => rfl
  | c :: l, h => by
    have h1 := h c (by simp)
    have hne : c ≠ '/' ∧ c ≠ '-' := by
      refine ⟨?_, ?_⟩ <;> rintro rfl <;> revert h1 <;> decide
    rw [noComment, noComment_dict fun x hx => h x (List.mem_cons_of_mem _ hx)]
    simp [hne.1, hne.2]

/-- C66: choosing a dictionary in the menu, its name having only letters, full stops, apostrophes and underscores: whatever
the input is, if it is a query which names no other dictionary and has no word list, the words searched are those of this
dictionary. -/
theorem C66_chosen {U : Unicode} {dir : List DirEntry} {name : List Char} {ws : List Word} (hname : HasDict U dir name ws)
    (hne : name ≠ []) (hc : ∀ c ∈ name, dictChar c = true) {w n : Nat} (hw : w < 2 ^ 64) (hr : n < 2 ^ 64)
    {input : List Char} {q : QueryAst} (hq : QueryAst.ofText U input = .ok q) (hnone : q.options.dictionary = none)
    (hlist : q.options.wordlist = none) :
    ∃ q', QueryAst.ofText U (pageText name (digits w) (digits n) input []) = .ok q' ∧ q'.expressions = q.expressions ∧
      ∀ wl, ChosenWords (HasDict U dir) q'.options wl ↔ wl = ws := by
  obtain ⟨q', h1, h2, h3, _⟩ := C60_page (U := U) (dict_ok hne (fun c h => .inl (hc c h)) (noComment_dict hc)) hw hr hq
  have hf : (name.filter fun c => c != '-' && c != ' ') = name := by
    rw [List.filter_eq_self]
    intro c hm
    have := hc c hm
    have hne : c ≠ '-' ∧ c ≠ ' ' := by
      refine ⟨?_, ?_⟩ <;> rintro rfl <;> revert this <;> decide
    simp [hne.1, hne.2]
  have hd := h2.2.2.2.2.2
  rw [hf, hnone, Option.getD_none] at hd
  refine ⟨q', h1, h2.1, fun wl => ⟨fun h => ?_, ?_⟩⟩
  · cases h with
    | given h => rw [h3 hlist] at h; cases h
    | named _ h4 h5 =>
      rw [hd] at h4
      cases h4
      exact hasDict_unique h5 hname
    | unknown _ h4 h5 =>
      rw [hd] at h4
      cases h4
      exact absurd hname (h5 ws)
    | unnamed _ h4 => rw [hd] at h4; cases h4
  · rintro rfl
    exact .named (h3 hlist) hd hname

/-- C66: but if the name has a hyphen, and no other dictionary has the name without hyphens, the words searched are those of
`default`, without a warning: those of the dictionary chosen are never searched. -/
theorem C66_hyphen {U : Unicode} {dir : List DirEntry} {name : List Char} {dflt : List Word}
    (hdef : HasDict U dir "default".toList dflt)
    (hne : name ≠ []) (hc : ∀ c ∈ name, dictChar c = true ∨ c = '-') (hcom : noComment name = true)
    (hno : ∀ ws, ¬ HasDict U dir (name.filter fun c => c != '-') ws) {w n : Nat} (hw : w < 2 ^ 64) (hr : n < 2 ^ 64)
    {input : List Char} {q : QueryAst} (hq : QueryAst.ofText U input = .ok q) (hnone : q.options.dictionary = none)
    (hlist : q.options.wordlist = none) :
    ∃ q', QueryAst.ofText U (pageText name (digits w) (digits n) input []) = .ok q' ∧ q'.expressions = q.expressions ∧
      ∀ wl, ChosenWords (HasDict U dir) q'.options wl ↔ wl = dflt := by
  obtain ⟨q', h1, h2, h3, _⟩ := C60_page (U := U) (dict_ok hne hc hcom) hw hr hq
  have hf : (name.filter fun c => c != '-' && c != ' ') = name.filter fun c => c != '-' := by
    apply List.filter_congr
    intro c hm
    rcases hc c hm with h | rfl
    · have : c ≠ ' ' := by rintro rfl; revert h; decide
      simp [this]
    · rfl
  have hd := h2.2.2.2.2.2
  rw [hf, hnone, Option.getD_none] at hd
  refine ⟨q', h1, h2.1, fun wl => ⟨fun h => ?_, ?_⟩⟩
  · cases h with
    | given h => rw [h3 hlist] at h; cases h
    | named _ h4 h5 =>
      rw [hd] at h4
      cases h4
      exact absurd h5 (hno wl)
    | unknown _ h4 h5 h6 => exact hasDict_unique h6 hdef
    | unnamed _ h4 => rw [hd] at h4; cases h4
  · rintro rfl
    exact .unknown (h3 hlist) hd hno hdef

/-- C66: and if the name has another character, such as a digit, every query is answered with a syntax error in its first
line, which is not a line of the input. -/
theorem C66_unusable {U : Unicode} {name : List Char} (hl : '\n' ∉ name ∧ ';' ∉ name) (hn : noComment name = true)
    (hc : ∃ c ∈ name, dictChar c = false ∧ c ≠ '-' ∧ c ≠ ' ') (words results input custom : List Char) :
    QueryAst.ofText U (pageText name words results input custom) = .error (.syntax 1) := by
  have hbad : QueryAst.ofText U ("#dict ".toList ++ name) = .error (.syntax 1) := by
    have h := C59_exactly (U := U) (b := 0) (key := "#dict".toList) (rest := ' ' :: name) (by decide +kernel)
      ⟨by simpa using hl.1, by simpa using hl.2⟩ (by rw [noComment, hn]; rfl)
    rw [if_neg] at h
    · have e : gap 0 ++ "#dict".toList ++ ' ' :: name = "#dict ".toList ++ name := by
        rw [show "#dict ".toList = "#dict".toList ++ [' '] by decide +kernel]
        simp [gap]
      rw [e] at h
      exact h
    · rintro ⟨_, h2⟩
      obtain ⟨c, h3, h4, h5, h6⟩ := hc
      rcases h2 c (by simp [h3]) with h | h | h
      · rw [h4] at h; cases h
      · exact h5 h
      · exact h6 h
  obtain ⟨rest, e⟩ : ∃ rest, pageText name words results input custom = ("#dict ".toList ++ name) ++ '\n' :: rest := by
    unfold pageText
    simp only [show "\n".toList = ['\n'] from by decide +kernel]
    split
    · exact ⟨_, by simp only [List.append_assoc, List.cons_append, List.nil_append]; rfl⟩
    · exact ⟨_, by simp only [List.append_assoc, List.cons_append, List.nil_append]; rfl⟩
  have hno : '\n' ∉ "#dict ".toList ++ name ∧ ';' ∉ "#dict ".toList ++ name := by
    rw [List.mem_append, List.mem_append, not_or, not_or]
    exact ⟨⟨by decide +kernel, hl.1⟩, ⟨by decide +kernel, hl.2⟩⟩
  obtain ⟨ls, hls⟩ : ∃ ls, Lines rest ls := ⟨splitLines rest, lines_iff.2 rfl⟩
  have hlines : Lines (pageText name words results input custom) ([] ++ ("#dict ".toList ++ name) :: ls) := by
    rw [e]
    exact .cons hno.1 hno.2 (.inl rfl) hls
  exact C34_rejected (raw := []) (ls := []) hlines .nil (by simp) .nil (.last hno.1 hno.2) hbad

/-! ### Examples -/

example : menu [("uk".toList, 7), ("default".toList, 3), ("wiki-titles".toList, 12)] =
    [⟨"wiki-titles (12)".toList, "wiki-titles".toList, false⟩, ⟨"uk (7)".toList, "uk".toList, false⟩,
      ⟨"default (3)".toList, "default".toList, true⟩] := by
  decide +kernel

example : menuValue (menu [("uk".toList, 7), ("wiki-titles".toList, 12)]) = "wiki-titles".toList ∧ menuValue (menu []) = [] := by
  decide +kernel

/-- A directory with a list with such a name. -/
example : ∃ dir : List DirEntry, PlainDir dir ∧ (∃ ws, HasDict asciiUnicode dir "default".toList ws) ∧
    (∃ ws, HasDict asciiUnicode dir "wiki-titles".toList ws) ∧ ∀ ws, ¬ HasDict asciiUnicode dir "wikititles".toList ws := by
  refine ⟨[⟨"default.txt".toList, true, sampleFile⟩, ⟨"wiki-titles.txt".toList, true, sampleFile⟩], ?_, ?_, ?_, ?_⟩
  · intro e he
    simp only [List.mem_cons, List.not_mem_nil, or_false] at he
    rcases he with rfl | rfl <;> (show ∀ c ∈ _, _; decide +kernel)
  · exact ⟨_, [], _, _, rfl, rfl, stem_iff.2 (by decide +kernel), rfl, by simp⟩
  · refine ⟨_, [_], _, _, rfl, rfl, stem_iff.2 (by decide +kernel), rfl, ?_⟩
    intro x hx _ hs
    rw [List.mem_singleton.1 hx] at hs
    have := stem_iff.1 hs
    revert this
    decide +kernel
  · rintro ws ⟨a, e, b, hd, _, hs, _⟩
    have hm : e ∈ ([⟨"default.txt".toList, true, sampleFile⟩, ⟨"wiki-titles.txt".toList, true, sampleFile⟩] : List DirEntry) := by
      rw [hd]; simp
    have hs := stem_iff.1 hs
    simp only [List.mem_cons, List.not_mem_nil, or_false] at hm
    rcases hm with rfl | rfl <;> revert hs <;> decide +kernel

end Noodle
