import Verif.Spec.Screen
import Verif.Props.C61
import Verif.Props.C68
/-
C65: what the page shows. `Screen` is the model of the page; `Spec/Screen.lean` says what it should show.
-/
namespace Noodle
open Spec
set_option autoImplicit false

/-! ### Sorting -/

theorem insertBy_perm (key : Hit → Int) (x : Hit) : ∀ l, (insertBy key x l).Perm (x :: l)
  | [] => .refl _
  | y :: l => by
    rw [insertBy]
    split
    · exact .refl _
    · exact ((insertBy_perm key x l).cons y).trans (.swap x y l)

theorem sortBy_perm (key : Hit → Int) : ∀ l, (sortBy key l).Perm l
  | [] => .refl _
  | x :: l => (insertBy_perm key x _).trans ((sortBy_perm key l).cons x)

/-- From the smallest key to the greatest; of two with the same key the one that came first. -/
def Lexed (key : Hit → Int) (l : List Hit) : Prop :=
  l.Pairwise fun a b => key a < key b ∨ key a = key b ∧ a.order < b.order

theorem insertBy_lexed {key : Hit → Int} {x : Hit} : ∀ {l : List Hit}, Lexed key l →
    (∀ y ∈ l, key x = key y → x.order < y.order) → Lexed key (insertBy key x l)
  | [], _, _ => List.pairwise_singleton _ _
  | y :: l, h, hx => by
    have h' := List.pairwise_cons.1 h
    rw [insertBy]
    split
    · rename_i hle
      refine List.pairwise_cons.2 ⟨fun z hz => ?_, h⟩
      rcases List.mem_cons.1 hz with rfl | hz
      · rcases Int.lt_or_eq_of_le hle with hl | he
        · exact .inl hl
        · exact .inr ⟨he, hx _ (List.mem_cons_self ..) he⟩
      · rcases h'.1 z hz with h1 | ⟨h1, _⟩
        · exact .inl (by omega)
        · by_cases he : key x = key z
          · exact .inr ⟨he, hx z (List.mem_cons_of_mem _ hz) he⟩
          · exact .inl (by omega)
    · rename_i hle
      refine List.pairwise_cons.2 ⟨fun z hz => ?_, insertBy_lexed h'.2 (fun z hz => hx z (List.mem_cons_of_mem _ hz))⟩
      rcases List.mem_cons.1 ((insertBy_perm key x l).mem_iff.1 hz) with rfl | hz
      · exact .inl (by omega)
      · exact h'.1 z hz

theorem sortBy_lexed {key : Hit → Int} : ∀ {l : List Hit},
    l.Pairwise (fun a b => key a = key b → a.order < b.order) → Lexed key (sortBy key l)
  | [], _ => .nil
  | x :: l, h => by
    have h' := List.pairwise_cons.1 h
    exact insertBy_lexed (sortBy_lexed h'.2) fun y hy => h'.1 y ((sortBy_perm key l).mem_iff.1 hy)

theorem lexed_unique {key : Hit → Int} {a b : List Hit} (h : a.Perm b) (ha : Lexed key a) (hb : Lexed key b) : a = b :=
  h.eq_of_pairwise (fun x y _ _ h1 h2 => by
    exfalso
    rcases h1 with h1 | ⟨h1, h3⟩ <;> rcases h2 with h2 | ⟨h2, h4⟩ <;> omega) ha hb

/-! ### Numbering -/

theorem inOrder_snoc (ps : List (List (List Char × Nat))) (p : List (List Char × Nat)) :
    inOrder (ps ++ [p]) = inOrder ps ++ [⟨p, ps.length⟩] := by
  simp [inOrder, List.zipIdx_append]

theorem inOrder_length (ps : List (List (List Char × Nat))) : (inOrder ps).length = ps.length := by simp [inOrder]

theorem inOrder_order {ps : List (List (List Char × Nat))} {h : Hit} (hm : h ∈ inOrder ps) : h.order < ps.length := by
  rw [inOrder, List.mem_map] at hm
  obtain ⟨⟨p, i⟩, h1, rfl⟩ := hm
  have := List.mem_zipIdx h1
  show i < _
  omega

theorem inOrder_sorted (ps : List (List (List Char × Nat))) : (inOrder ps).Pairwise fun a b => a.order < b.order := by
  induction ps using List.reverseRecOn with
  | nil => exact .nil
  | append_singleton ps p ih =>
    rw [inOrder_snoc, List.pairwise_append]
    refine ⟨ih, List.pairwise_singleton _ _, fun a ha b hb => ?_⟩
    rw [List.mem_singleton] at hb
    subst hb
    exact inOrder_order ha

theorem inOrder_lexed (ps : List (List (List Char × Nat))) : Lexed (fun h => (h.order : Int)) (inOrder ps) :=
  (inOrder_sorted ps).imp fun h => .inl (Int.ofNat_lt.2 h)

/-! ### The connections -/

/-- The state of the connection number `k`, after these things since it was made. -/
def talk (k : Nat) (hs : List Happening) : Conn :=
  if hs.any (endsTalk k) then .closed else if .opened k ∈ hs then .open else .connecting

def spoken (k : Nat) (c : Conn) : Happening → List Msg
  | .message j m => if c = .open ∧ j = k then [m] else []
  | _ => []

theorem any_false {k : Nat} {hs : List Happening} (h : ¬ hs.any (endsTalk k) = true) :
    hs.takeWhile (fun h => !endsTalk k h) = hs := by
  simp only [List.any_eq_true, not_exists, not_and, Bool.not_eq_true] at h
  have := List.takeWhile_append_of_pos (p := fun h => !endsTalk k h) (l₁ := hs) (l₂ := []) fun x hx => by rw [h x hx]; rfl
  simpa using this

theorem takeWhile_any {k : Nat} {hs : List Happening} (h : hs.any (endsTalk k) = true) (t : List Happening) :
    (hs ++ t).takeWhile (fun h => !endsTalk k h) = hs.takeWhile fun h => !endsTalk k h := by
  induction hs with
  | nil => simp at h
  | cons a hs ih =>
    rw [List.any_cons, Bool.or_eq_true] at h
    rw [List.cons_append]
    by_cases ha : endsTalk k a = true
    · rw [List.takeWhile_cons_of_neg (by simp [ha]), List.takeWhile_cons_of_neg (by simp [ha])]
    · rw [List.takeWhile_cons_of_pos (by simp [ha]), List.takeWhile_cons_of_pos (by simp [ha]),
        ih (h.resolve_left ha)]

theorem takeWhile_snoc {k : Nat} {hs : List Happening} (h : ¬ hs.any (endsTalk k) = true) (x : Happening) :
    (hs ++ [x]).takeWhile (fun h => !endsTalk k h) = if endsTalk k x then hs else hs ++ [x] := by
  by_cases hx : endsTalk k x = true
  · rw [if_pos hx, List.takeWhile_append_of_pos, List.takeWhile_cons_of_neg (by simp [hx]), List.append_nil]
    intro a ha
    simp only [List.any_eq_true, not_exists, not_and, Bool.not_eq_true] at h
    rw [h a ha]
    rfl
  · rw [if_neg hx]
    apply any_false
    rw [List.any_append, Bool.or_eq_true, not_or]
    exact ⟨h, by simpa using hx⟩

theorem heard_snoc (k : Nat) (hs : List Happening) (x : Happening) :
    heard k (hs ++ [x]) = heard k hs ++ spoken k (talk k hs) x := by
  unfold heard talk
  by_cases h : hs.any (endsTalk k) = true
  · rw [takeWhile_any h, if_pos h]
    cases x <;> simp [spoken]
  · rw [takeWhile_snoc h, any_false h, if_neg h]
    by_cases hx : endsTalk k x = true
    · rw [if_pos hx]
      cases x <;> first | (simp [endsTalk] at hx; done) | simp [spoken]
    · rw [if_neg hx]
      by_cases ho : Happening.opened k ∈ hs
      · rw [if_pos ho]
        obtain ⟨a, b, rfl, ha⟩ := List.eq_append_cons_of_mem ho
        have hp : ∀ c ∈ a, decide (c ≠ Happening.opened k) = true := by
          intro c hc
          rw [decide_eq_true_eq]
          rintro rfl
          exact ha hc
        rw [List.append_assoc, List.dropWhile_append_of_pos hp, List.dropWhile_append_of_pos hp, List.cons_append,
          List.dropWhile_cons_of_neg (by simp), List.dropWhile_cons_of_neg (by simp), ← List.cons_append,
          List.filterMap_append]
        congr 1
        cases x <;> try rfl
        rename_i j m
        by_cases hj : j = k <;> simp [spoken, hj]
      · rw [if_neg ho]
        have hp : ∀ c ∈ hs, decide (c ≠ Happening.opened k) = true := by
          intro c hc
          rw [decide_eq_true_eq]
          rintro rfl
          exact ho hc
        have hd : hs.dropWhile (fun h => decide (h ≠ Happening.opened k)) = [] := by
          have := List.dropWhile_append_of_pos (l₂ := []) hp
          simpa using this
        rw [List.dropWhile_append_of_pos hp, hd]
        by_cases hxo : x = .opened k
        · subst hxo
          rw [List.dropWhile_cons_of_neg (by simp)]
          simp [spoken]
        · rw [List.dropWhile_cons_of_pos (by simpa using hxo)]
          cases x <;> simp [spoken]

theorem opens_iff (k : Nat) (hs : List Happening) (x : Happening) :
    GetsOpen k (hs ++ [x]) ↔ GetsOpen k hs ∨ talk k hs = .connecting ∧ x = .opened k := by
  unfold GetsOpen talk
  by_cases h : hs.any (endsTalk k) = true
  · rw [takeWhile_any h, if_pos h]; simp
  · rw [takeWhile_snoc h, any_false h, if_neg h]
    by_cases hx : endsTalk k x = true
    · rw [if_pos hx]
      constructor
      · exact .inl
      · rintro (h1 | ⟨_, rfl⟩)
        · exact h1
        · simp [endsTalk] at hx
    · rw [if_neg hx, List.mem_append, List.mem_singleton]
      by_cases ho : Happening.opened k ∈ hs
      · simp [ho]
      · simp [ho, eq_comm]

theorem talk_snoc (k : Nat) (hs : List Happening) (x : Happening) :
    talk k (hs ++ [x]) = if endsTalk k x then .closed else match talk k hs with
      | .connecting => if x = .opened k then .open else .connecting
      | c => c := by
  unfold talk
  rw [List.any_append]
  by_cases h : hs.any (endsTalk k) = true
  · rw [h]; simp
  · rw [Bool.eq_false_iff.2 h]
    by_cases hx : endsTalk k x = true
    · simp [hx]
    · rw [Bool.eq_false_iff.2 hx]
      by_cases ho : Happening.opened k ∈ hs
      · simp [ho, hx]
      · simp [ho, hx, eq_comm]

/-! ### The page since the last query -/

/-- What holds after `hs` since the connection number `k` was made with this text. -/
structure Since (B : Browser) (k : Nat) (text : List Char) (hs : List Happening) (s : Screen) : Prop where
  length : s.conns.length = k + 1
  last : s.conns[k]? = some (talk k hs, text)
  old : ∀ j p, j < k → s.conns[j]? = some p → p.1 = .closed
  found : ∃ ms, s.found = some ms ∧ ms.Perm (inOrder (matchesIn (heard k hs))) ∧
    ms.Pairwise (fun a b => a.net B = b.net B → a.order < b.order) ∧
    (∀ p, Lets B s p → s.shown = ms.filter fun h => p h.text) ∧
    ((∀ h ∈ hs, h ≠ .setSort true) → s.sort = false ∧ ms = inOrder (matchesIn (heard k hs)))
  log : s.log = logsIn (heard k hs)
  sent : (k, text) ∈ s.sent ↔ GetsOpen k hs
  status : (∀ h ∈ hs, h ≠ .stop ∧ ∀ j, h ≠ .failed j) → (GetsOpen k hs → s.status =
      ((statusesIn (heard k hs)).getLast?).getD "Connected to Noodle server...".toList) ∧
    (¬ GetsOpen k hs → s.status = "Connecting to Noodle server...".toList)

theorem heard_unopened {k : Nat} {hs : List Happening} (h : talk k hs = .connecting) : heard k hs = [] ∧ ¬ GetsOpen k hs := by
  unfold talk at h
  split at h
  · cases h
  · rename_i h1
    split at h
    · cases h
    · rename_i h2
      unfold heard GetsOpen
      rw [any_false h1]
      refine ⟨?_, h2⟩
      have hp : ∀ c ∈ hs, decide (c ≠ Happening.opened k) = true := by
        intro c hc
        rw [decide_eq_true_eq]
        rintro rfl
        exact h2 hc
      have := List.dropWhile_append_of_pos (l₂ := []) hp
      rw [List.append_nil] at this
      rw [this]
      rfl

theorem matchesIn_snoc (ms : List Msg) (m : Msg) : matchesIn (ms ++ [m]) = matchesIn ms ++ matchesIn [m] := List.filterMap_append
theorem logsIn_snoc (ms : List Msg) (m : Msg) : logsIn (ms ++ [m]) = logsIn ms ++ logsIn [m] := List.filterMap_append
theorem statusesIn_snoc (ms : List Msg) (m : Msg) : statusesIn (ms ++ [m]) = statusesIn ms ++ statusesIn [m] :=
  List.filterMap_append

/-- Sorting again. -/
theorem since_rebuild {B : Browser} {k : Nat} {text : List Char} {hs : List Happening} {x : Happening} {s s0 : Screen}
    (h : Since B k text hs s) (h1 : spoken k (talk k hs) x = []) (h2 : talk k (hs ++ [x]) = talk k hs)
    (h3 : GetsOpen k (hs ++ [x]) ↔ GetsOpen k hs) (hc : s0.conns = s.conns) (hf : s0.found = s.found)
    (hl : s0.log = s.log) (hst : s0.status = s.status) (hse : s0.sent = s.sent)
    (hsort : x ≠ .setSort true → s.sort = false → s0.sort = false) : Since B k text (hs ++ [x]) (s0.rebuild B) := by
  obtain ⟨ms, m1, m2, m3, m4, m5⟩ := h.found
  have hconns : (s0.rebuild B).conns = s.conns ∧ (s0.rebuild B).log = s.log ∧ (s0.rebuild B).status = s.status ∧
      (s0.rebuild B).sort = s0.sort ∧ (s0.rebuild B).filter = s0.filter ∧ (s0.rebuild B).filtered = s0.filtered ∧
      (s0.rebuild B).sent = s.sent := by
    unfold Screen.rebuild
    rw [hf, m1]
    simp only
    split
    · exact ⟨hc, hl, hst, rfl, rfl, rfl, hse⟩
    · split <;> exact ⟨hc, hl, hst, rfl, rfl, rfl, hse⟩
  have hheard : heard k (hs ++ [x]) = heard k hs := by rw [heard_snoc, h1, List.append_nil]
  have hperm : (if s0.sort then sortBy (Hit.net B) ms else sortBy (fun h => (h.order : Int)) ms).Perm ms := by
    split <;> exact sortBy_perm _ _
  have hord : ms.Pairwise fun a b => (a.order : Int) = b.order → a.order < b.order := by
    have hnd : (ms.map Hit.order).Nodup := by
      refine (m2.map _).nodup_iff.2 ?_
      rw [List.nodup_iff_pairwise_ne, List.pairwise_map]
      exact (inOrder_sorted _).imp fun h => Nat.ne_of_lt h
    rw [List.nodup_iff_pairwise_ne, List.pairwise_map] at hnd
    exact hnd.imp fun h1 h2 => absurd (by omega) h1
  refine ⟨by rw [hconns.1]; exact h.length, by rw [hconns.1, h2]; exact h.last, by rw [hconns.1]; exact h.old, ?_,
    by rw [hconns.2.1, hheard]; exact h.log, by rw [hconns.2.2.2.2.2.2, h3]; exact h.sent, ?_⟩
  · refine ⟨if s0.sort then sortBy (Hit.net B) ms else sortBy (fun h => (h.order : Int)) ms, ?_, ?_, ?_, ?_, ?_⟩
    · unfold Screen.rebuild
      rw [hf, m1]
      simp only
      split
      · rfl
      · split <;> rfl
    · rw [hheard]; exact hperm.trans m2
    · split
      · exact (sortBy_lexed m3).imp fun h1 h2 => by rcases h1 with h1 | h1 <;> omega
      · exact (sortBy_lexed hord).imp fun h1 _ => by rcases h1 with h1 | ⟨_, h1⟩ <;> [exact Int.ofNat_lt.1 h1; exact h1]
    · intro p hp
      unfold Lets at hp
      rw [hconns.2.2.2.2.1, hconns.2.2.2.2.2.1] at hp
      unfold Screen.rebuild
      rw [hf, m1]
      simp only
      rcases hp with ⟨hp1, hp2⟩ | ⟨hp1, hp2⟩
      · rw [hp1, if_pos (by rfl)]
        show _ = List.filter _ _
        rw [List.filter_eq_self.2 fun a _ => hp2 _]
      · rw [hp1, hp2]
        rfl
    · intro hno
      have hx : x ≠ .setSort true := hno x (by simp)
      obtain ⟨n1, n2⟩ := m5 fun y hy => hno y (List.mem_append_left _ hy)
      have hs0 := hsort hx n1
      rw [hconns.2.2.2.1, hs0, hheard]
      refine ⟨rfl, ?_⟩
      show sortBy _ ms = _
      exact lexed_unique ((sortBy_perm _ _).trans m2) (sortBy_lexed hord) (inOrder_lexed _)
  · intro hno
    rw [hconns.2.2.1, hheard, h3]
    exact h.status fun y hy => hno y (List.mem_append_left _ hy)

theorem conn_get {l : List (Conn × List Char)} {j k : Nat} (c : Conn) :
    (l.modify k fun p => (c, p.2))[j]? = if j = k then l[j]?.map fun p => (c, p.2) else l[j]? := by
  rw [List.getElem?_modify]
  by_cases h : j = k
  · subst h; simp
  · rw [if_neg h]
    cases l[j]? <;> simp [Ne.symm h]

/-- Nothing is heard, and nothing that is shown changes but the status. -/
theorem since_quiet {B : Browser} {k : Nat} {text : List Char} {hs : List Happening} {x : Happening} {s s' : Screen}
    (h : Since B k text hs s) (h1 : spoken k (talk k hs) x = [])
    (hlen : s'.conns.length = k + 1) (hlast : s'.conns[k]? = some (talk k (hs ++ [x]), text))
    (hold : ∀ j p, j < k → s'.conns[j]? = some p → p.1 = .closed)
    (hf : s'.found = s.found) (hsh : s'.shown = s.shown) (hl : s'.log = s.log) (hso : s'.sort = s.sort)
    (hfi : s'.filter = s.filter) (hfd : s'.filtered = s.filtered)
    (hse : (k, text) ∈ s'.sent ↔ GetsOpen k (hs ++ [x]))
    (hst : (x ≠ .stop ∧ ∀ j, x ≠ .failed j) → GetsOpen k (hs ++ [x]) ∧ heard k hs = [] ∧
        s'.status = "Connected to Noodle server...".toList ∨
      s'.status = s.status ∧ (GetsOpen k (hs ++ [x]) ↔ GetsOpen k hs)) : Since B k text (hs ++ [x]) s' := by
  have hheard : heard k (hs ++ [x]) = heard k hs := by rw [heard_snoc, h1, List.append_nil]
  obtain ⟨ms, m1, m2, m3, m4, m5⟩ := h.found
  refine ⟨hlen, hlast, hold, ⟨ms, by rw [hf]; exact m1, by rw [hheard]; exact m2, m3, ?_, ?_⟩, by rw [hl, hheard]; exact h.log,
    hse, ?_⟩
  · intro p hp
    unfold Lets at hp
    rw [hfi, hfd] at hp
    rw [hsh]
    exact m4 p hp
  · intro hno
    rw [hso, hheard]
    exact m5 fun y hy => hno y (List.mem_append_left _ hy)
  · intro hno
    rw [hheard]
    rcases hst (hno x (by simp)) with ⟨g1, g2, g3⟩ | ⟨g1, g2⟩
    · rw [g2, g3]
      exact ⟨fun _ => rfl, fun g => absurd g1 g⟩
    · rw [g1, g2]
      exact h.status fun y hy => hno y (List.mem_append_left _ hy)

theorem since_hear {B : Browser} {k : Nat} {text : List Char} {hs : List Happening} {s : Screen} {m : Msg}
    (h : Since B k text hs s) (hopen : talk k hs = .open) : Since B k text (hs ++ [.message k m]) (s.receive B m) := by
  have hheard : heard k (hs ++ [.message k m]) = heard k hs ++ [m] := by rw [heard_snoc, hopen]; simp [spoken]
  have htalk : talk k (hs ++ [.message k m]) = .open := by rw [talk_snoc, hopen]; simp [endsTalk]
  have hgets : GetsOpen k hs := by
    unfold talk at hopen
    split at hopen
    · cases hopen
    · rename_i h1
      split at hopen
      · rename_i h2
        unfold GetsOpen
        rw [any_false h1]; exact h2
      · cases hopen
  have hgets' : GetsOpen k (hs ++ [.message k m]) := (opens_iff _ _ _).2 (.inl hgets)
  obtain ⟨ms, m1, m2, m3, m4, m5⟩ := h.found
  have hsent : (k, text) ∈ s.sent ↔ GetsOpen k (hs ++ [.message k m]) := ⟨fun _ => hgets', fun _ => h.sent.2 hgets⟩
  have prev : ∀ {P : Happening → Prop}, (∀ y ∈ hs ++ [.message k m], P y) → ∀ y ∈ hs, P y :=
    fun hno y hy => hno y (List.mem_append_left _ hy)
  cases m with
  | status t =>
    have e1 : matchesIn (heard k (hs ++ [.message k (.status t)])) = matchesIn (heard k hs) := by
      rw [hheard, matchesIn_snoc]; simp [matchesIn]
    have e2 : logsIn (heard k (hs ++ [.message k (.status t)])) = logsIn (heard k hs) := by
      rw [hheard, logsIn_snoc]; simp [logsIn]
    have er : s.receive B (.status t) = if t = [] then s else { s with status := t } := rfl
    rw [er]
    by_cases ht : t = []
    · rw [if_pos ht]
      refine ⟨h.length, by rw [htalk, ← hopen]; exact h.last, h.old, ⟨ms, m1, by rw [e1]; exact m2, m3, m4, ?_⟩,
        by rw [e2]; exact h.log, hsent, ?_⟩
      · intro hno; rw [e1]; exact m5 (prev hno)
      · intro hno
        refine ⟨fun _ => ?_, fun hn => absurd hgets' hn⟩
        rw [(h.status (prev hno)).1 hgets, hheard, statusesIn_snoc]
        simp [statusesIn, ht]
    · rw [if_neg ht]
      refine ⟨h.length, by rw [htalk, ← hopen]; exact h.last, h.old, ⟨ms, m1, by rw [e1]; exact m2, m3, m4, ?_⟩,
        by rw [e2]; exact h.log, hsent, ?_⟩
      · intro hno; rw [e1]; exact m5 (prev hno)
      · intro hno
        refine ⟨fun _ => ?_, fun hn => absurd hgets' hn⟩
        rw [hheard, statusesIn_snoc]
        simp [statusesIn, ht]
  | log t =>
    have e1 : matchesIn (heard k (hs ++ [.message k (.log t)])) = matchesIn (heard k hs) := by
      rw [hheard, matchesIn_snoc]; simp [matchesIn]
    refine ⟨h.length, by rw [htalk, ← hopen]; exact h.last, h.old, ⟨ms, m1, by rw [e1]; exact m2, m3, m4, ?_⟩, ?_,
      hsent, ?_⟩
    · intro hno; rw [e1]; exact m5 (prev hno)
    · show s.log ++ [t] = _
      rw [hheard, logsIn_snoc, h.log]; rfl
    · intro hno
      refine ⟨fun _ => ?_, fun hn => absurd hgets' hn⟩
      show s.status = _
      rw [(h.status (prev hno)).1 hgets, hheard, statusesIn_snoc]
      simp [statusesIn]
  | found ph =>
    have hn : matchesIn (heard k (hs ++ [.message k (.found ph)])) = matchesIn (heard k hs) ++ [ph] := by
      rw [hheard, matchesIn_snoc]; rfl
    have e2 : logsIn (heard k (hs ++ [.message k (.found ph)])) = logsIn (heard k hs) := by
      rw [hheard, logsIn_snoc]; simp [logsIn]
    have hlen : ms.length = (matchesIn (heard k hs)).length := by rw [m2.length_eq, inOrder_length]
    have hnew : (ms ++ [(⟨ph, ms.length⟩ : Hit)]).Perm (inOrder (matchesIn (heard k (hs ++ [.message k (.found ph)])))) := by
      rw [hn, inOrder_snoc, hlen]
      exact m2.append_right _
    have hpw : (ms ++ [(⟨ph, ms.length⟩ : Hit)]).Pairwise fun a b => a.net B = b.net B → a.order < b.order := by
      rw [List.pairwise_append]
      refine ⟨m3, List.pairwise_singleton _ _, fun a ha b hb _ => ?_⟩
      rw [List.mem_singleton] at hb
      subst hb
      have := inOrder_order (m2.mem_iff.1 ha)
      show a.order < ms.length
      omega
    have hfields : (s.arrive B ph).conns = s.conns ∧ (s.arrive B ph).log = s.log ∧ (s.arrive B ph).status = s.status ∧
        (s.arrive B ph).found = some (ms ++ [⟨ph, ms.length⟩]) ∧ (s.arrive B ph).filter = s.filter ∧
        (s.arrive B ph).filtered = s.filtered ∧ (s.sort = false → (s.arrive B ph).sort = false) ∧
        (s.arrive B ph).sent = s.sent := by
      unfold Screen.arrive
      rw [m1]
      simp only [Option.getD_some]
      split
      · exact ⟨rfl, rfl, rfl, rfl, rfl, rfl, fun _ => rfl, rfl⟩
      · split
        · exact ⟨rfl, rfl, rfl, rfl, rfl, rfl, id, rfl⟩
        · split
          · exact ⟨rfl, rfl, rfl, rfl, rfl, rfl, fun _ => rfl, rfl⟩
          · exact ⟨rfl, rfl, rfl, rfl, rfl, rfl, id, rfl⟩
    obtain ⟨f1, f2, f3, f4, f5, f6, f7, f8⟩ := hfields
    show Since B k text _ (s.arrive B ph)
    refine ⟨by rw [f1]; exact h.length, by rw [f1, htalk, ← hopen]; exact h.last, by rw [f1]; exact h.old,
      ⟨_, f4, hnew, hpw, ?_, ?_⟩, by rw [f2, e2]; exact h.log, by rw [f8]; exact hsent, ?_⟩
    · intro p hp
      unfold Lets at hp
      rw [f5, f6] at hp
      have hold := m4 p hp
      rw [List.filter_append, ← hold]
      unfold Screen.arrive
      rw [m1]
      simp only [Option.getD_some]
      rcases hp with ⟨hp1, hp2⟩ | ⟨hp1, hp2⟩
      · rw [hp1, if_pos (by rfl)]
        show s.shown ++ _ = _
        rw [List.filter_eq_self.2 fun a _ => hp2 _]
      · rw [hp1, if_neg (by simp), hp2]
        simp only
        by_cases hpt : p (Hit.text ⟨ph, ms.length⟩) = true
        · rw [if_pos hpt]; simp [hpt]
        · rw [if_neg hpt]; simp [hpt]
    · intro hno
      obtain ⟨n1, n2⟩ := m5 (prev hno)
      refine ⟨f7 n1, ?_⟩
      rw [hn, inOrder_snoc, ← n2, hlen]
    · intro hno
      refine ⟨fun _ => ?_, fun hn => absurd hgets' hn⟩
      rw [f3, (h.status (prev hno)).1 hgets, hheard, statusesIn_snoc]
      simp [statusesIn]

theorem talk_same {k : Nat} {hs : List Happening} {x : Happening} (h : endsTalk k x = false)
    (hx : talk k hs = .connecting → x ≠ .opened k) : talk k (hs ++ [x]) = talk k hs := by
  rw [talk_snoc, h]
  cases ht : talk k hs <;> simp_all

theorem opens_same {k : Nat} {hs : List Happening} {x : Happening} (hx : talk k hs = .connecting → x ≠ .opened k) :
    GetsOpen k (hs ++ [x]) ↔ GetsOpen k hs := by
  rw [opens_iff]
  exact ⟨fun h => h.elim id fun h => absurd h.2 (hx h.1), .inl⟩

/-- Nothing happens. -/
theorem since_same {B : Browser} {k : Nat} {text : List Char} {hs : List Happening} {x : Happening} {s : Screen}
    (h : Since B k text hs s) (h1 : spoken k (talk k hs) x = []) (h2 : endsTalk k x = false)
    (hx : talk k hs = .connecting → x ≠ .opened k) : Since B k text (hs ++ [x]) s :=
  since_quiet h h1 h.length (by rw [talk_same h2 hx]; exact h.last) h.old rfl rfl rfl rfl rfl rfl
    (by rw [opens_same hx]; exact h.sent) fun _ => .inr ⟨rfl, opens_same hx⟩

/-- The connection number `j` is closed. -/
theorem since_closed {B : Browser} {k j : Nat} {text : List Char} {hs : List Happening} {x : Happening} {s s' : Screen}
    (h : Since B k text hs s) (h1 : spoken k (talk k hs) x = []) (h2 : endsTalk k x = true ↔ j = k) (hx : x ≠ .opened k)
    (hc : s'.conns = (s.setConn j .closed).conns) (hf : s'.found = s.found) (hsh : s'.shown = s.shown) (hl : s'.log = s.log)
    (hso : s'.sort = s.sort) (hfi : s'.filter = s.filter) (hfd : s'.filtered = s.filtered) (hse : s'.sent = s.sent)
    (hst : x ≠ .stop ∧ (∀ j, x ≠ .failed j) → s'.status = s.status) : Since B k text (hs ++ [x]) s' := by
  have hc' : s'.conns = s.conns.modify j fun p => (Conn.closed, p.2) := hc
  have hop := opens_same (hs := hs) fun _ => hx
  refine since_quiet h h1 ?_ ?_ ?_ hf hsh hl hso hfi hfd (by rw [hse, hop]; exact h.sent) fun hh => .inr ⟨hst hh, hop⟩
  · rw [hc', List.length_modify]; exact h.length
  · rw [hc', conn_get, h.last]
    by_cases hj : k = j
    · rw [if_pos hj, talk_snoc, h2.2 hj.symm]; rfl
    · rw [if_neg hj, talk_same (Bool.eq_false_iff.2 fun h3 => hj (h2.1 h3).symm) fun _ => hx]
  · intro i p hi hp
    rw [hc', conn_get] at hp
    split at hp
    · obtain ⟨q, _, rfl⟩ := Option.map_eq_some_iff.1 hp
      rfl
    · exact h.old i p hi hp

theorem since_step {B : Browser} {k : Nat} {text : List Char} {hs : List Happening} {x : Happening} {s : Screen}
    (h : Since B k text hs s) (hx : isSubmit x = false) : Since B k text (hs ++ [x]) (s.step B x) := by
  have hle : ∀ j p, s.conns[j]? = some p → j ≤ k := fun j p hj => by
    have := (List.getElem?_eq_some_iff.1 hj).1
    have := h.length
    omega
  cases x with
  | submit t => simp [isSubmit] at hx
  | stop =>
    have he : s.step B .stop = { s.setConn k .closed with status := "Stopped by user".toList } := by
      show s.stop = _
      unfold Screen.stop
      rw [if_neg (by rw [List.isEmpty_iff_length_eq_zero, h.length]; simp), h.length]
      rfl
    rw [he]
    exact since_closed (j := k) h rfl (by simp [endsTalk]) (by simp) rfl rfl rfl rfl rfl rfl rfl rfl fun hh => absurd rfl hh.1
  | setSort b =>
    refine since_rebuild h rfl (talk_same rfl fun _ => by simp) (opens_same fun _ => by simp) rfl rfl rfl rfl rfl ?_
    intro hb _
    show b = false
    cases b
    · rfl
    · exact absurd rfl hb
  | setFiltered b =>
    exact since_rebuild h rfl (talk_same rfl fun _ => by simp) (opens_same fun _ => by simp) rfl rfl rfl rfl rfl fun _ => id
  | setFilter t =>
    exact since_rebuild h rfl (talk_same rfl fun _ => by simp) (opens_same fun _ => by simp) rfl rfl rfl rfl rfl fun _ => id
  | opened j =>
    by_cases hj : talk k hs = .connecting ∧ j = k
    · obtain ⟨ht, rfl⟩ := hj
      have he : s.step B (.opened j) =
          { s.setConn j .open with
            status := "Connected to Noodle server...".toList
            sent := s.sent ++ [(j, text)] } := by
        show (match s.conns[j]? with | some (.connecting, text) => _ | _ => _) = _
        rw [h.last, ht]
      have hg : GetsOpen j (hs ++ [.opened j]) := (opens_iff _ _ _).2 (.inr ⟨ht, rfl⟩)
      rw [he]
      refine since_quiet h rfl ?_ ?_ ?_ rfl rfl rfl rfl rfl rfl ⟨fun _ => hg, fun _ => by simp⟩
        fun _ => .inl ⟨hg, (heard_unopened ht).1, rfl⟩
      · show (s.conns.modify j _).length = _
        rw [List.length_modify]; exact h.length
      · show (s.conns.modify j fun p => (Conn.open, p.2))[j]? = _
        rw [conn_get, if_pos rfl, h.last, talk_snoc, ht]
        simp [endsTalk]
      · intro i p hi hp
        have hp : (s.conns.modify j fun p => (Conn.open, p.2))[i]? = some p := hp
        rw [conn_get, if_neg (by omega)] at hp
        exact h.old i p hi hp
    · have he : s.step B (.opened j) = s := by
        show (match s.conns[j]? with | some (.connecting, text) => _ | _ => _) = _
        split
        · rename_i t hc
          exfalso
          rcases Nat.lt_or_eq_of_le (hle _ _ hc) with hl | rfl
          · have := h.old _ _ hl hc
            cases this
          · rw [h.last] at hc
            injection hc with hc
            injection hc with hc _
            exact hj ⟨hc, rfl⟩
        · rfl
      rw [he]
      refine since_same h rfl rfl fun ht he => hj ⟨ht, ?_⟩
      injection he
  | failed j =>
    have he : s.step B (.failed j) = if j < s.conns.length then
        { s.setConn j .closed with status := "Unable to connect to Noodle server".toList } else s := rfl
    rw [he]
    split
    · exact since_closed (j := j) h rfl (by simp [endsTalk]) (by simp) rfl rfl rfl rfl rfl rfl rfl rfl
        fun hh => absurd rfl (hh.2 j)
    · rename_i hj
      have := h.length
      exact since_same h rfl (by simp [endsTalk]; omega) fun _ => by simp
  | closedBy j =>
    exact since_closed (j := j) h rfl (by simp [endsTalk]) (by simp) rfl rfl rfl rfl rfl rfl rfl rfl fun _ => rfl
  | message j m =>
    by_cases hj : talk k hs = .open ∧ j = k
    · obtain ⟨ht, rfl⟩ := hj
      have he : s.step B (.message j m) = s.receive B m := by
        show (match s.conns[j]? with | some (.open, _) => _ | _ => _) = _
        rw [h.last, ht]
      rw [he]
      exact since_hear h ht
    · have he : s.step B (.message j m) = s := by
        show (match s.conns[j]? with | some (.open, _) => _ | _ => _) = _
        split
        · rename_i t hc
          exfalso
          rcases Nat.lt_or_eq_of_le (hle _ _ hc) with hl | rfl
          · have := h.old _ _ hl hc
            cases this
          · rw [h.last] at hc
            injection hc with hc
            injection hc with hc _
            exact hj ⟨hc, rfl⟩
        · rfl
      rw [he]
      exact since_same h (by rw [spoken, if_neg hj]) rfl fun _ => by simp

/-! ### The page from the start -/

/-- What holds after `hs` from a fresh page. -/
structure Whole (B : Browser) (hs : List Happening) (s : Screen) : Prop where
  texts : s.conns.map Prod.snd = submitted hs
  old : ∀ j p, j + 1 < s.conns.length → s.conns[j]? = some p → p.1 = .closed
  sent : ∀ k t, (k, t) ∈ s.sent → (submitted hs)[k]? = some t
  once : (s.sent.map Prod.fst).Nodup
  idle : ∀ k t, s.conns[k]? = some (.connecting, t) → ∀ u, (k, u) ∉ s.sent
  found : s.found = none ↔ submitted hs = []
  shown : s.found = none → s.shown = [] ∧ s.log = []

theorem whole_fresh (B : Browser) (a b : Bool) (f : List Char) : Whole B [] (Screen.fresh a b f) :=
  ⟨rfl, by simp [Screen.fresh], by simp [Screen.fresh], by simp [Screen.fresh], by simp [Screen.fresh],
    by simp [Screen.fresh, submitted], by simp [Screen.fresh]⟩

theorem submitted_snoc (hs : List Happening) (x : Happening) : submitted (hs ++ [x]) = submitted hs ++ submitted [x] :=
  List.filterMap_append

theorem submitted_other {x : Happening} (hs : List Happening) (h : isSubmit x = false) :
    submitted (hs ++ [x]) = submitted hs := by
  rw [submitted_snoc]
  cases x <;> first | (simp [isSubmit] at h; done) | simp [submitted]

theorem whole_other {B : Browser} {hs : List Happening} {x : Happening} {s s' : Screen} (h : Whole B hs s)
    (hx : isSubmit x = false) (hc : s'.conns = s.conns ∨ ∃ k, s'.conns = (s.setConn k .closed).conns)
    (hse : s'.sent = s.sent) (hf : s'.found = none ↔ s.found = none)
    (hsh : s.found = none → s'.shown = s.shown ∧ s'.log = s.log) : Whole B (hs ++ [x]) s' := by
  have hsub := submitted_other hs hx
  have hsn : s'.found = none → s'.shown = [] ∧ s'.log = [] := fun h1 => by
    have h2 := hf.1 h1
    rw [(hsh h2).1, (hsh h2).2]; exact h.shown h2
  rcases hc with hc | ⟨k, hc⟩
  · refine ⟨by rw [hc, hsub]; exact h.texts, by rw [hc]; exact h.old, by rw [hse, hsub]; exact h.sent,
      by rw [hse]; exact h.once, by rw [hc, hse]; exact h.idle, by rw [hf, hsub]; exact h.found, hsn⟩
  · have hc : s'.conns = s.conns.modify k fun p => (Conn.closed, p.2) := hc
    refine ⟨?_, ?_, by rw [hse, hsub]; exact h.sent, by rw [hse]; exact h.once, ?_, by rw [hf, hsub]; exact h.found, hsn⟩
    · rw [hc, hsub, ← h.texts]
      apply List.ext_getElem?
      intro i
      rw [List.getElem?_map, List.getElem?_map, conn_get]
      split
      · cases s.conns[i]? <;> rfl
      · rfl
    · intro j p hj hp
      rw [hc] at hj hp
      rw [List.length_modify] at hj
      rw [conn_get] at hp
      split at hp
      · obtain ⟨q, _, rfl⟩ := Option.map_eq_some_iff.1 hp
        rfl
      · exact h.old j p hj hp
    · intro j t hp
      rw [hc, conn_get] at hp
      rw [hse]
      split at hp
      · obtain ⟨q, _, hq⟩ := Option.map_eq_some_iff.1 hp
        cases hq
      · exact h.idle j t hp

theorem rebuild_fields (B : Browser) (s : Screen) : (s.rebuild B).conns = s.conns ∧ (s.rebuild B).sent = s.sent ∧
    ((s.rebuild B).found = none ↔ s.found = none) ∧
    (s.found = none → (s.rebuild B).shown = s.shown ∧ (s.rebuild B).log = s.log) := by
  unfold Screen.rebuild
  cases hf : s.found with
  | none => simp [hf]
  | some ms =>
    simp only
    split
    · simp
    · split <;> simp

theorem whole_step {B : Browser} {hs : List Happening} (x : Happening) {s : Screen} (h : Whole B hs s) :
    Whole B (hs ++ [x]) (s.step B x) := by
  cases x with
  | submit t =>
    have hc : (s.stop.conns = s.conns ∧ s.conns = [] ∨
        s.stop.conns = s.conns.modify (s.conns.length - 1) fun p => (Conn.closed, p.2)) ∧ s.stop.sent = s.sent := by
      unfold Screen.stop
      split
      · rename_i he
        exact ⟨.inl ⟨rfl, List.isEmpty_iff.1 he⟩, rfl⟩
      · exact ⟨.inr rfl, rfl⟩
    obtain ⟨hc, hse⟩ := hc
    have hlen : s.stop.conns.length = s.conns.length := by
      rcases hc with ⟨hc, _⟩ | hc
      · rw [hc]
      · rw [hc, List.length_modify]
    have hmap : s.stop.conns.map Prod.snd = submitted hs := by
      rw [← h.texts]
      rcases hc with ⟨hc, _⟩ | hc
      · rw [hc]
      · rw [hc]
        apply List.ext_getElem?
        intro i
        rw [List.getElem?_map, List.getElem?_map, conn_get]
        split
        · cases s.conns[i]? <;> rfl
        · rfl
    have hall : ∀ (j : Nat) (p : Conn × List Char), s.stop.conns[j]? = some p → p.1 = .closed := by
      intro j p hp
      rcases hc with ⟨hc, he⟩ | hc
      · rw [hc, he] at hp; cases hp
      · rw [hc, conn_get] at hp
        split at hp
        · obtain ⟨q, _, rfl⟩ := Option.map_eq_some_iff.1 hp
          rfl
        · have := (List.getElem?_eq_some_iff.1 hp).1
          exact h.old j p (by omega) hp
    have hn : (submitted hs).length = s.conns.length := by rw [← h.texts, List.length_map]
    have hsub : submitted (hs ++ [.submit t]) = submitted hs ++ [t] := by rw [submitted_snoc]; rfl
    have hbound : ∀ k u, (k, u) ∈ s.sent → k < s.conns.length := fun k u hk => by
      have := (List.getElem?_eq_some_iff.1 (h.sent k u hk)).1
      omega
    refine ⟨?_, ?_, ?_, ?_, ?_, ?_, ?_⟩
    · show (s.stop.conns ++ [(Conn.connecting, t)]).map Prod.snd = _
      rw [List.map_append, hmap, hsub]; rfl
    · intro j p hj hp
      have hj : j + 1 < (s.stop.conns ++ [(Conn.connecting, t)]).length := hj
      have hp : (s.stop.conns ++ [(Conn.connecting, t)])[j]? = some p := hp
      rw [List.length_append, List.length_singleton] at hj
      rw [List.getElem?_append_left (by omega)] at hp
      exact hall j p hp
    · intro k u hk
      have hk : (k, u) ∈ s.stop.sent := hk
      rw [hse] at hk
      rw [hsub, List.getElem?_append_left (by have := hbound k u hk; omega)]
      exact h.sent k u hk
    · show (s.stop.sent.map Prod.fst).Nodup
      rw [hse]; exact h.once
    · intro k u hk v hv
      have hk : (s.stop.conns ++ [(Conn.connecting, t)])[k]? = some (.connecting, u) := hk
      have hv : (k, v) ∈ s.stop.sent := hv
      rw [hse] at hv
      rw [List.getElem?_append_left (by have := hbound k v hv; omega)] at hk
      cases hall _ _ hk
    · rw [hsub]
      constructor
      · intro h1; cases h1
      · intro h1; simp at h1
    · intro h1; cases h1
  | stop =>
    show Whole B _ s.stop
    unfold Screen.stop
    split
    · exact whole_other h rfl (.inl rfl) rfl .rfl fun _ => ⟨rfl, rfl⟩
    · exact whole_other h rfl (.inr ⟨_, rfl⟩) rfl .rfl fun _ => ⟨rfl, rfl⟩
  | setSort b =>
    obtain ⟨r1, r2, r3, r4⟩ := rebuild_fields B { s with sort := b }
    exact whole_other h rfl (.inl r1) r2 r3 r4
  | setFiltered b =>
    obtain ⟨r1, r2, r3, r4⟩ := rebuild_fields B { s with filtered := b }
    exact whole_other h rfl (.inl r1) r2 r3 r4
  | setFilter f =>
    obtain ⟨r1, r2, r3, r4⟩ := rebuild_fields B { s with filter := f, filtered := true }
    exact whole_other h rfl (.inl r1) r2 r3 r4
  | opened k =>
    show Whole B _ (match s.conns[k]? with
      | some (.connecting, text) =>
        ({ s.setConn k .open with
           status := "Connected to Noodle server...".toList
           sent := s.sent ++ [(k, text)] } : Screen)
      | _ => s)
    split
    · rename_i t hk
      have hsub : submitted (hs ++ [.opened k]) = submitted hs := submitted_other hs rfl
      have hlt := (List.getElem?_eq_some_iff.1 hk).1
      refine ⟨?_, ?_, ?_, ?_, ?_, by rw [hsub]; exact h.found, h.shown⟩
      · show (s.conns.modify k fun p => (Conn.open, p.2)).map Prod.snd = _
        rw [hsub, ← h.texts]
        apply List.ext_getElem?
        intro i
        rw [List.getElem?_map, List.getElem?_map, conn_get]
        split
        · cases s.conns[i]? <;> rfl
        · rfl
      · intro j p hj hp
        have hj : j + 1 < (s.conns.modify k fun p => (Conn.open, p.2)).length := hj
        have hp : (s.conns.modify k fun p => (Conn.open, p.2))[j]? = some p := hp
        rw [List.length_modify] at hj
        rw [conn_get] at hp
        split at hp
        · rename_i hjk
          rw [← hjk] at hk
          cases h.old j _ hj hk
        · exact h.old j p hj hp
      · intro j u hj
        rw [hsub]
        have hj : (j, u) ∈ s.sent ++ [(k, t)] := hj
        rcases List.mem_append.1 hj with hj | hj
        · exact h.sent j u hj
        · rw [List.mem_singleton] at hj
          injection hj with e1 e2
          subst e1 e2
          rw [← h.texts, List.getElem?_map, hk]; rfl
      · show ((s.sent ++ [(k, t)]).map Prod.fst).Nodup
        rw [List.map_append, List.nodup_append]
        refine ⟨h.once, by simp, ?_⟩
        intro a ha b hb
        simp only [List.map_cons, List.map_nil, List.mem_singleton] at hb
        subst hb
        rintro rfl
        obtain ⟨⟨i, u⟩, hi, rfl⟩ := List.mem_map.1 ha
        exact h.idle i t hk u hi
      · intro j u hj v hv
        have hj : (s.conns.modify k fun p => (Conn.open, p.2))[j]? = some (.connecting, u) := hj
        have hv : (j, v) ∈ s.sent ++ [(k, t)] := hv
        rw [conn_get] at hj
        split at hj
        · obtain ⟨q, _, hq⟩ := Option.map_eq_some_iff.1 hj
          cases hq
        · rename_i hjk
          rcases List.mem_append.1 hv with hv | hv
          · exact h.idle j u hj v hv
          · rw [List.mem_singleton] at hv
            injection hv with e1 _
            exact hjk e1
    · exact whole_other h rfl (.inl rfl) rfl .rfl fun _ => ⟨rfl, rfl⟩
  | failed k =>
    show Whole B _ (if k < s.conns.length then
      ({ s.setConn k .closed with status := "Unable to connect to Noodle server".toList } : Screen) else s)
    split
    · exact whole_other h rfl (.inr ⟨k, rfl⟩) rfl .rfl fun _ => ⟨rfl, rfl⟩
    · exact whole_other h rfl (.inl rfl) rfl .rfl fun _ => ⟨rfl, rfl⟩
  | closedBy k => exact whole_other h rfl (.inr ⟨k, rfl⟩) rfl .rfl fun _ => ⟨rfl, rfl⟩
  | message k m =>
    show Whole B _ (match s.conns[k]? with | some (.open, _) => s.receive B m | _ => s)
    split
    · rename_i t hk
      have hne : s.found ≠ none := by
        intro hf
        have h1 := h.found.1 hf
        rw [← h.texts] at h1
        rw [List.map_eq_nil_iff.1 h1] at hk
        cases hk
      obtain ⟨ms, hms⟩ := Option.ne_none_iff_exists'.1 hne
      have hr : (s.receive B m).conns = s.conns ∧ (s.receive B m).sent = s.sent ∧ (s.receive B m).found ≠ none := by
        cases m with
        | status t =>
          show (if t = [] then s else { s with status := t }).conns = _ ∧ (if t = [] then s else { s with status := t }).sent = _ ∧
            (if t = [] then s else { s with status := t }).found ≠ _
          split <;> exact ⟨rfl, rfl, hne⟩
        | log t => exact ⟨rfl, rfl, hne⟩
        | found ph =>
          show (s.arrive B ph).conns = _ ∧ (s.arrive B ph).sent = _ ∧ (s.arrive B ph).found ≠ _
          unfold Screen.arrive
          simp only
          split
          · simp
          · split
            · simp
            · split <;> simp
      exact whole_other h rfl (.inl hr.1) hr.2.1 ⟨fun h1 => absurd h1 hr.2.2, fun h1 => absurd h1 hne⟩
        fun h1 => absurd h1 hne
    · exact whole_other h rfl (.inl rfl) rfl .rfl fun _ => ⟨rfl, rfl⟩

theorem run_snoc (B : Browser) (s : Screen) (hs : List Happening) (x : Happening) :
    s.run B (hs ++ [x]) = (s.run B hs).step B x := by
  simp [Screen.run]

theorem whole_run (B : Browser) (a b : Bool) (f : List Char) (hs : List Happening) :
    Whole B hs ((Screen.fresh a b f).run B hs) := by
  induction hs using List.reverseRecOn with
  | nil => exact whole_fresh B a b f
  | append_singleton hs x ih => rw [run_snoc]; exact whole_step x ih

theorem since_submit {B : Browser} {hs : List Happening} {s : Screen} {text : List Char} (h : Whole B hs s) :
    Since B (submitted hs).length text [] (s.submit text) := by
  have hw : Whole B (hs ++ [.submit text]) (s.submit text) := whole_step (.submit text) h
  have hsub : submitted (hs ++ [.submit text]) = submitted hs ++ [text] := by rw [submitted_snoc]; rfl
  have hlen : (s.submit text).conns.length = (submitted hs).length + 1 := by
    have := congrArg List.length hw.texts
    rw [hsub, List.length_map, List.length_append, List.length_singleton] at this
    exact this
  have hl : s.stop.conns.length = (submitted hs).length := by
    have : (s.stop.conns ++ [(Conn.connecting, text)]).length = (submitted hs).length + 1 := hlen
    rw [List.length_append, List.length_singleton] at this
    omega
  have hlast : (s.submit text).conns[(submitted hs).length]? = some (.connecting, text) := by
    show (s.stop.conns ++ [(Conn.connecting, text)])[_]? = _
    rw [List.getElem?_append_right (by omega), hl, Nat.sub_self]; rfl
  have hg : ¬ GetsOpen (submitted hs).length [] := by simp [GetsOpen]
  refine ⟨hlen, hlast, fun j p hj hp => hw.old j p (by omega) hp, ⟨[], rfl, ?_, .nil, ?_, ?_⟩, rfl,
    ⟨fun hm => absurd hm (hw.idle _ _ hlast text), fun h1 => absurd h1 hg⟩, fun _ => ⟨fun h1 => absurd h1 hg, fun _ => rfl⟩⟩
  · exact .refl _
  · intro p _; rfl
  · intro _; exact ⟨rfl, rfl⟩

/-- After a query has been submitted, and other things but another submission have happened. -/
theorem since_run (B : Browser) (a b : Bool) (f : List Char) (pre post : List Happening) (text : List Char)
    (h : ∀ x ∈ post, isSubmit x = false) :
    Since B (submitted pre).length text post ((Screen.fresh a b f).run B (pre ++ .submit text :: post)) := by
  induction post using List.reverseRecOn with
  | nil => rw [run_snoc]; exact since_submit (whole_run B a b f pre)
  | append_singleton post x ih =>
    rw [← List.cons_append, ← List.append_assoc, run_snoc]
    exact since_step (ih fun y hy => h y (List.mem_append_left _ hy)) (h x (by simp))

/-! ### The claims -/

/-- C65: after a query has been submitted, and then anything but another submission has happened, the page holds exactly the
matches and the logs that have come in on the connection of this query since it was opened and until it was stopped, failed
or was closed; nothing of an earlier query, nothing twice. The logs are in the order in which they came, and the matches,
too, unless they were to be sorted. -/
theorem C65_found (B : Browser) (a b : Bool) (f : List Char) {pre post : List Happening} {text : List Char} {s : Screen}
    (h : ∀ x ∈ post, isSubmit x = false) (hs : (Screen.fresh a b f).run B (pre ++ .submit text :: post) = s) :
    s.log = logsIn (heard (submitted pre).length post) ∧
      ∃ ms, s.found = some ms ∧ ms.Perm (inOrder (matchesIn (heard (submitted pre).length post))) ∧
        ((∀ x ∈ post, x ≠ .setSort true) → ms = inOrder (matchesIn (heard (submitted pre).length post))) := by
  subst hs
  have hs := since_run B a b f pre post text h
  obtain ⟨ms, m1, m2, _, _, m5⟩ := hs.found
  exact ⟨hs.log, ms, m1, m2, fun hh => (m5 hh).2⟩

/-- C65: what is shown are the matches that the filter lets through now, each once. They are in the order in which they
came, unless they were to be sorted. -/
theorem C65_shown (B : Browser) (a b : Bool) (f : List Char) {pre post : List Happening} {text : List Char} {s : Screen}
    (h : ∀ x ∈ post, isSubmit x = false) (hs : (Screen.fresh a b f).run B (pre ++ .submit text :: post) = s)
    {p : List Char → Bool} (hp : Lets B s p) :
    s.shown.Perm ((inOrder (matchesIn (heard (submitted pre).length post))).filter fun h => p h.text) ∧
      ((∀ x ∈ post, x ≠ .setSort true) →
        s.shown = (inOrder (matchesIn (heard (submitted pre).length post))).filter fun h => p h.text) := by
  subst hs
  have hs := since_run B a b f pre post text h
  obtain ⟨ms, m1, m2, _, m4, m5⟩ := hs.found
  rw [m4 p hp]
  exact ⟨m2.filter _, fun hh => by rw [(m5 hh).2]⟩

/-- C65: right after the user has changed the order or the filter: if the results are to be sorted, they go from the smallest
score to the greatest, those with the same score in the order in which they came; otherwise all are in the order in
which they came, even if they had been sorted. -/
theorem C65_view (B : Browser) (a b : Bool) (f : List Char) {pre post : List Happening} {text : List Char} {x : Happening}
    {s : Screen} (h : ∀ x ∈ post, isSubmit x = false)
    (hx : (∃ c, x = .setSort c) ∨ (∃ c, x = .setFiltered c) ∨ ∃ t, x = .setFilter t)
    (hs : (Screen.fresh a b f).run B (pre ++ .submit text :: (post ++ [x])) = s) {p : List Char → Bool} (hp : Lets B s p) :
    s.shown.Perm ((inOrder (matchesIn (heard (submitted pre).length post))).filter fun h => p h.text) ∧
      (s.sort = true → Ranked B s.shown) ∧
      (s.sort = false → s.shown = (inOrder (matchesIn (heard (submitted pre).length post))).filter fun h => p h.text) := by
  have hsi := since_run B a b f pre post text h
  obtain ⟨ms, m1, m2, m3, m4, m5⟩ := hsi.found
  have hstep : ∃ s0 : Screen, s = s0.rebuild B ∧ s0.found = some ms := by
    rw [← hs, ← List.cons_append, ← List.append_assoc, run_snoc]
    rcases hx with ⟨c, rfl⟩ | ⟨c, rfl⟩ | ⟨c, rfl⟩
    · exact ⟨_, rfl, m1⟩
    · exact ⟨_, rfl, m1⟩
    · exact ⟨_, rfl, m1⟩
  obtain ⟨s0, rfl, hf⟩ := hstep
  have hfields : (s0.rebuild B).sort = s0.sort ∧ (s0.rebuild B).filter = s0.filter ∧
      (s0.rebuild B).filtered = s0.filtered := by
    unfold Screen.rebuild
    rw [hf]
    simp only
    split
    · simp
    · split <;> simp
  have hord : ms.Pairwise fun a b => (a.order : Int) = b.order → a.order < b.order := by
    have hnd : (ms.map Hit.order).Nodup := by
      refine (m2.map _).nodup_iff.2 ?_
      rw [List.nodup_iff_pairwise_ne, List.pairwise_map]
      exact (inOrder_sorted _).imp fun h => Nat.ne_of_lt h
    rw [List.nodup_iff_pairwise_ne, List.pairwise_map] at hnd
    exact hnd.imp fun h1 h2 => absurd (by omega) h1
  have hshown : (s0.rebuild B).shown =
      (if s0.sort then sortBy (Hit.net B) ms else sortBy (fun h => (h.order : Int)) ms).filter fun h => p h.text := by
    unfold Lets at hp
    rw [hfields.2.1, hfields.2.2] at hp
    unfold Screen.rebuild
    rw [hf]
    simp only
    rcases hp with ⟨hp1, hp2⟩ | ⟨hp1, hp2⟩
    · rw [hp1, if_pos (by rfl)]
      show _ = List.filter _ _
      rw [List.filter_eq_self.2 fun a _ => hp2 _]
    · rw [hp1, hp2]
      rfl
  rw [hshown, hfields.1]
  refine ⟨List.Perm.filter _ ?_, fun h1 => ?_, fun h1 => ?_⟩
  · split
    · exact (sortBy_perm _ _).trans m2
    · exact (sortBy_perm _ _).trans m2
  · rw [if_pos h1]
    exact (sortBy_lexed m3).sublist List.filter_sublist
  · rw [if_neg (by rw [h1]; simp)]
    rw [lexed_unique ((sortBy_perm _ _).trans m2) (sortBy_lexed hord) (inOrder_lexed _)]

/-- C65: what the user has set is what holds. -/
theorem C65_settings (B : Browser) (s : Screen) :
    (∀ c, (s.step B (.setSort c)).sort = c ∧ (s.step B (.setSort c)).filtered = s.filtered ∧
      (s.step B (.setSort c)).filter = s.filter) ∧
    (∀ c, (s.step B (.setFiltered c)).filtered = c ∧ (s.step B (.setFiltered c)).filter = s.filter ∧
      (s.step B (.setFiltered c)).sort = s.sort) ∧
    (∀ t, (s.step B (.setFilter t)).filtered = true ∧ (s.step B (.setFilter t)).filter = t ∧
      (s.step B (.setFilter t)).sort = s.sort) ∧
    ∀ t, (s.step B (.submit t)).filtered = false ∧ (s.step B (.submit t)).sort = false ∧
      (s.step B (.submit t)).shown = [] ∧ (s.step B (.submit t)).log = [] := by
  have key : ∀ s0 : Screen, (s0.rebuild B).sort = s0.sort ∧ (s0.rebuild B).filter = s0.filter ∧
      (s0.rebuild B).filtered = s0.filtered := by
    intro s0
    unfold Screen.rebuild
    split
    · simp
    · simp only
      split
      · simp
      · split <;> simp
  refine ⟨fun c => ?_, fun c => ?_, fun t => ?_, fun t => ⟨rfl, rfl, rfl, rfl⟩⟩
  · have := key { s with sort := c }
    exact ⟨this.1, this.2.2, this.2.1⟩
  · have := key { s with filtered := c }
    exact ⟨this.2.2, this.2.1, this.1⟩
  · have := key { s with filter := t, filtered := true }
    exact ⟨this.2.2, this.2.1, this.1⟩

/-- C65: while nothing fails and the user does not stop the query, the status is that of this query: "Connecting…" before its
connection is opened, then "Connected…", then the last status that came in on it. -/
theorem C65_status (B : Browser) (a b : Bool) (f : List Char) {pre post : List Happening} {text : List Char} {s : Screen}
    (h : ∀ x ∈ post, isSubmit x = false) (hfine : ∀ x ∈ post, x ≠ .stop ∧ ∀ j, x ≠ .failed j)
    (hs : (Screen.fresh a b f).run B (pre ++ .submit text :: post) = s) :
    (¬ GetsOpen (submitted pre).length post → s.status = "Connecting to Noodle server...".toList) ∧
    (GetsOpen (submitted pre).length post → s.status =
      ((statusesIn (heard (submitted pre).length post)).getLast?).getD "Connected to Noodle server...".toList) := by
  subst hs
  have := (since_run B a b f pre post text h).status hfine
  exact ⟨this.2, this.1⟩

/-- C65: on each connection the text of its query is sent, nothing else, and at most once; for the last query it has been
sent if its connection has been opened before it was stopped, failed or was closed. -/
theorem C65_sent (B : Browser) (a b : Bool) (f : List Char) (hs : List Happening) {s : Screen}
    (hrun : (Screen.fresh a b f).run B hs = s) :
    (∀ k t, (k, t) ∈ s.sent → (submitted hs)[k]? = some t) ∧ (s.sent.map Prod.fst).Nodup ∧
    ∀ pre post text, hs = pre ++ .submit text :: post → (∀ x ∈ post, isSubmit x = false) →
      ((submitted pre).length ∈ s.sent.map Prod.fst ↔ GetsOpen (submitted pre).length post) := by
  subst hrun
  have hw := whole_run B a b f hs
  refine ⟨hw.sent, hw.once, ?_⟩
  rintro pre post text rfl h
  have hsi := (since_run B a b f pre post text h).sent
  rw [← hsi, List.mem_map]
  constructor
  · rintro ⟨⟨k, t⟩, h1, h2⟩
    have h2 : k = _ := h2
    subst h2
    have h3 := hw.sent _ _ h1
    have : submitted (pre ++ .submit text :: post) = submitted pre ++ text :: submitted post := by
      simp [submitted]
    rw [this, List.getElem?_append_right (Nat.le_refl _), Nat.sub_self] at h3
    injection h3 with h3
    subst h3; exact h1
  · exact fun h1 => ⟨_, h1, rfl⟩

/-- C65: the copy button copies what is shown, a line for each result. -/
theorem C65_copied (B : Browser) (a b : Bool) (f : List Char) {pre post : List Happening} {text : List Char} {s : Screen}
    (h : ∀ x ∈ post, isSubmit x = false) (hs : (Screen.fresh a b f).run B (pre ++ .submit text :: post) = s)
    {p : List Char → Bool} (hp : Lets B s p) :
    s.copied B = some (areaValue (s.shown.flatMap fun h => h.text ++ ['\n'])) := by
  subst hs
  have hs := since_run B a b f pre post text h
  obtain ⟨ms, m1, m2, _, m4, m5⟩ := hs.found
  rw [m4 p hp]
  have hflat : ∀ q : List Char → Bool, copyWordlist q (ms.map fun h => h.phrase.map Prod.fst) =
      areaValue ((ms.filter fun h => q h.text).flatMap fun h => h.text ++ ['\n']) := by
    intro q
    unfold copyWordlist
    rw [List.map_map, List.filter_map, List.flatMap_map]
    rfl
  unfold Screen.copied
  simp only [m1, Option.getD_some]
  rcases hp with ⟨hp1, hp2⟩ | ⟨hp1, hp2⟩
  · rw [hp1, if_pos (by rfl), hflat]
    have : ∀ h : Hit, (fun _ : List Char => true) h.text = p h.text := fun h => (hp2 _).symm
    rw [show (fun h : Hit => p h.text) = fun h => (fun _ : List Char => true) h.text from funext fun h => hp2 _]
  · rw [hp1, if_neg (by simp), hp2, Option.map_some, hflat]

/-- C65: but the status can tell of another query: if the user submits a query while the connection of the one before is still
being made, that one is closed, which is an error; and the page says that it cannot connect although it can. -/
theorem C65_counterexample (B : Browser) (a b : Bool) (f x y : List Char) :
    ∃ s, (Screen.fresh a b f).run B [.submit x, .submit y, .opened 1, .failed 0] = s ∧
      s.sent = [(1, y)] ∧ s.conns = [(.closed, x), (.open, y)] ∧ s.status = "Unable to connect to Noodle server".toList :=
  ⟨_, rfl, rfl, rfl, rfl⟩

/-! ### Together with the server -/

theorem carried_msg {m : WsMsg} {got : Msg} (h : Carried m.response.json got) : got = shownAs m := by
  by_cases hm : m = .status []
  · subst hm
    obtain ⟨v, h1, h2⟩ := h
    rw [jsonText_det h1 (response_text _), readMsg_value, if_pos rfl] at h2
    cases h2
  · exact ((C68_message m hm).2 got).1 h

theorem carried_all : ∀ {sent : List WsMsg} {got : List Msg}, CarriedAll (sent.map fun m => m.response.json) got →
    got = sent.map shownAs
  | [], got, h => by
    have : got = [] := List.length_eq_zero_iff.1 h.1.symm
    subst this
    rfl
  | x :: sent, [], h => absurd h.1 (by simp)
  | x :: sent, y :: got, h => by
    have ih := carried_all (sent := sent) (got := got)
      ⟨by simpa using h.1, fun i a b h1 h2 => h.2 (i + 1) a b (by simpa using h1) (by simpa using h2)⟩
    rw [List.map_cons, ← ih, carried_msg (h.2 0 _ y rfl rfl)]

theorem carried_matches {sent : List WsMsg} {got : List Msg} (h : CarriedAll (sent.map fun m => m.response.json) got) :
    matchesIn got = (sentMatches sent).map fun ws => ws.map entry := by
  rw [carried_all h]
  unfold matchesIn sentMatches
  rw [List.filterMap_map, List.map_filterMap]
  congr 1
  funext m
  cases m <;> rfl

theorem carried_logs {sent : List WsMsg} {got : List Msg} (h : CarriedAll (sent.map fun m => m.response.json) got) :
    logsIn got = sentLogs sent := by
  rw [carried_all h]
  unfold logsIn sentLogs
  rw [List.filterMap_map]
  congr 1
  funext m
  cases m <;> rfl

theorem inOrder_phrases (ps : List (List (List Char × Nat))) : (inOrder ps).map Hit.phrase = ps := by
  unfold inOrder
  rw [List.map_map]
  exact List.zipIdx_map_fst ..

/-- C65: from the text submitted to what is shown. The page sends the text to the server, whose messages come in, as the JSON texts
that they are, in order, up to some point. Then the page holds the matches of an evaluation of this query, each with its words'
texts and scores: as many of the first of them as have come in, in the order in which they were reported, and without a filter it
shows them. The log is, as far as it has come in, what is logged of the expressions and what the evaluation noted. If the client
does not go away and all messages have come in, these are all matches and all of the log. -/
theorem C65_session {F : Floats} {P : Prints} {U : Unicode} {dir : List DirEntry} {text : List Char} {q : QueryAst}
    {es : List Expr} {wl : List Word} (hq : QueryAst.ofText U text = .ok q)
    (hdef : ∃ ws, HasDict U dir "default".toList ws)
    (hwl : ChosenWords (HasDict U dir) q.options wl) (hne : q.expressions ≠ [])
    (hes : q.expressions.mapM fromAst = .ok es) {sends : Option Nat} {others : Nat} {ticks : List Tick} {got : List Msg}
    (hgot : CarriedAll ((wsRun F P U (loadDir U [] dir) (some (some text)) sends others ticks).2.1.map fun m => m.response.json)
      got)
    (B : Browser) (a b : Bool) (f : List Char) {pre post : List Happening} {s : Screen}
    (h : ∀ x ∈ post, isSubmit x = false ∧ x ≠ .setSort true)
    (hs : (Screen.fresh a b f).run B (pre ++ .submit text :: post) = s)
    (hheard : heard (submitted pre).length post <+: got) :
    ∃ n rs ls ms, Noted es wl (q.options.maxWords.getD 10) (some (q.options.limit.getD 300))
        ((ticks.take n).map Tick.clock) (String.ofList P.took) rs ls ∧ s.found = some ms ∧
      ms.map Hit.phrase <+: (reported rs).map (fun ws => ws.map entry) ∧
      (∀ p, Lets B s p → s.shown = ms.filter fun h => p h.text) ∧
      s.log <+: List.zipWith ExprAst.logged q.expressions es ++ ls.flatten ∧
      (sends = none → heard (submitted pre).length post = got →
        ms.map Hit.phrase = (reported rs).map (fun ws => ws.map entry) ∧
          s.log = List.zipWith ExprAst.logged q.expressions es ++ ls.flatten) := by
  obtain ⟨n, rs, ls, h1, h2, h3, h4⟩ := C68_log (F := F) (P := P) hq hdef hwl hne hes sends others ticks rfl
  have hsi := since_run B a b f pre post text fun x hx => (h x hx).1
  rw [hs] at hsi
  obtain ⟨ms, m1, m2, _, m4, m5⟩ := hsi.found
  have hms := (m5 fun x hx => (h x hx).2).2
  have hlog := hsi.log
  refine ⟨n, rs, ls, ms, h1, m1, ?_, m4, ?_, ?_⟩
  · rw [hms, inOrder_phrases]
    refine (hheard.filterMap _).trans ?_
    show matchesIn got <+: _
    rw [carried_matches hgot]
    exact h2.map _
  · rw [hlog]
    refine (hheard.filterMap _).trans ?_
    show logsIn got <+: _
    rw [carried_logs hgot]
    exact h3
  · rintro hn hall
    rw [hms, inOrder_phrases, hlog, hall, carried_matches hgot, carried_logs hgot, (h4 hn).1, (h4 hn).2]
    exact ⟨rfl, rfl⟩

/-! ### Examples -/

/-- A browser whose only regular expressions are plain letters. -/
def plainBrowser : Browser where
  regexp f := if f.all Char.isAlpha then some fun t => t.tails.any f.isPrefixOf else none
  net l := (l.sum : Nat)

/-- Two queries; the second has three matches, with a message of the first one too late; then sorted and filtered. -/
def someHappenings : List Happening :=
  [.submit "x".toList, .opened 0, .message 0 (.found [("old".toList, 1)]), .setSort true,
   .submit "y".toList, .message 0 (.found [("late".toList, 2)]), .opened 1, .message 1 (.status "Running".toList),
   .message 1 (.found [("abc".toList, 5)]), .message 1 (.log "L".toList), .message 1 (.found [("b".toList, 1), ("c".toList, 1)]),
   .message 1 (.found [("xyz".toList, 3)])]

def someScreen (more : List Happening) : Screen := (Screen.fresh true true "(".toList).run plainBrowser (someHappenings ++ more)

example : (someScreen []).shown.map Hit.text = ["abc".toList, "b c".toList, "xyz".toList] ∧
    (someScreen []).status = "Running".toList ∧ (someScreen []).log = ["L".toList] ∧
    (someScreen []).sent = [(0, "x".toList), (1, "y".toList)] ∧ (someScreen []).conns.map Prod.fst = [.closed, .open] := by
  decide +kernel

example : (someScreen [.setSort true]).shown.map Hit.text = ["b c".toList, "xyz".toList, "abc".toList] ∧
    (someScreen [.setFilter "c".toList]).shown.map Hit.text = ["abc".toList, "b c".toList] ∧
    (someScreen [.setSort true, .setFilter "c".toList]).shown.map Hit.text = ["b c".toList, "abc".toList] ∧
    (someScreen [.setSort true, .setFilter "c".toList, .message 1 (.found [("cc".toList, 0)])]).shown.map Hit.text =
      ["b c".toList, "abc".toList, "cc".toList] ∧
    (someScreen [.setSort true, .setSort false, .stop, .message 1 (.found [("cc".toList, 0)])]).shown.map Hit.text =
      ["abc".toList, "b c".toList, "xyz".toList] ∧
    (someScreen [.setFilter "c".toList]).copied plainBrowser = some "abc\nb c\n".toList := by
  decide +kernel

/-- A filter that is no regular expression: what is shown stays, and matches that come are shown only later. -/
example : (someScreen [.setFilter "(".toList, .message 1 (.found [("cc".toList, 0)])]).shown.map Hit.text =
      ["abc".toList, "b c".toList, "xyz".toList] ∧
    (someScreen [.setFilter "(".toList, .message 1 (.found [("cc".toList, 0)]), .setFilter "c".toList]).shown.map Hit.text =
      ["abc".toList, "b c".toList, "cc".toList] := by
  decide +kernel

example : Lets plainBrowser (someScreen [.setFilter "c".toList]) (fun t => t.tails.any "c".toList.isPrefixOf) ∧
    Lets plainBrowser (someScreen []) fun _ => true :=
  ⟨.inr ⟨by decide +kernel, rfl⟩, .inl ⟨by decide +kernel, fun _ => rfl⟩⟩

end Noodle
