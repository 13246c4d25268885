import Verif.Spec.ListCount
import Verif.Proofs.ListGen
/-
Lemmas about the counting of words.
-/
namespace Noodle
set_option autoImplicit false
open Spec

/-! ### Canonical forms of canonical forms -/

theorem canon_idem {P : Python} (hP : PlainAscii P) {w k : List Char} (h : Canonical P w k) (hd : ∀ c ∈ k, ¬ Digit c) :
    canonicalize P k = k := by
  have nil : canonicalize P [] = [] := canonicalize_nil P (hP.nfkd [] (by simp))
  cases h with
  | digit => exact nil
  | foreign => exact nil
  | signs => exact nil
  | @form a k b x y h1 h2 h3 h4 h5 h6 h7 h8 =>
    have hin : ∀ c ∈ k, c ∈ folded P w := fun c hc => by rw [h3]; simp [hc]
    have hasc : ∀ c ∈ k, c.toNat < 128 := fun c hc => h2 c (hin c hc)
    have hfold : ∀ c ∈ k, P.casefold c = [c] := by
      intro c hc
      have := hin c hc
      unfold folded at this
      rw [List.mem_flatMap] at this
      obtain ⟨d, _, hd⟩ := this
      exact hP.folds d c hd (hasc c hc)
    have hflat : ∀ {f : Char → List Char} {l : List Char}, (∀ c ∈ l, f c = [c]) → l.flatMap f = l := by
      intro f l
      induction l with
      | nil => intro _; rfl
      | cons c l ih =>
        intro h
        rw [List.flatMap_cons, h c (by simp), ih fun d hd => h d (by simp [hd])]
        rfl
    have hf : folded P k = k := by
      unfold folded
      have e1 : (k.flatMap fun c => match c with
          | 'æ' => ['a', 'e'] | 'Æ' => ['A', 'E'] | 'œ' => ['o', 'e'] | 'Œ' => ['O', 'E'] | c => [c]) = k := by
        refine hflat fun c hc => ?_
        have := hasc c hc
        split <;> first | rfl | (exact absurd this (by decide))
      refine Eq.trans ?_ (hflat hfold)
      refine congrArg _ ?_
      refine Eq.trans (congrArg _ ((congrArg _ e1).trans (hP.nfkd k hasc))) ?_
      exact List.filter_eq_self.2 fun c hc => by rw [hP.combining c (hasc c hc)]; rfl
    refine (canonical_iff.1 (Canonical.form (a := []) (b := []) hd ?_ ?_ (by simp) h5 h6 h7 h8))
    · rw [hf]; exact hasc
    · rw [hf]; simp

/-! ### Sums -/

/-- How often words with a property were counted, from rows or from a dictionary. -/
def tot (q : List Char → Bool) (rows : List CountRow) : Int := ((rows.filter fun r => q r.2).map fun r => r.1).sum

def sumD (q : List Char → Bool) (d : PyDict Int) : Int := ((d.filter fun x => q x.1).map fun x => x.2).sum

theorem tot_cons (q : List Char → Bool) (r : CountRow) (rows : List CountRow) :
    tot q (r :: rows) = (if q r.2 then r.1 else 0) + tot q rows := by
  unfold tot
  rw [List.filter_cons]
  split <;> simp

theorem sumD_cons (q : List Char → Bool) (x : List Char × Int) (d : PyDict Int) :
    sumD q (x :: d) = (if q x.1 then x.2 else 0) + sumD q d := by
  unfold sumD
  rw [List.filter_cons]
  split <;> simp

theorem sumD_snoc (q : List Char → Bool) (x : List Char × Int) (d : PyDict Int) :
    sumD q (d ++ [x]) = sumD q d + if q x.1 then x.2 else 0 := by
  unfold sumD
  rw [List.filter_append, List.map_append, List.sum_append, List.filter_cons]
  split <;> simp

theorem totalOf_eq (p : List Char → Prop) (q : List Char → Bool) (h : ∀ w, q w = true ↔ p w) (rows : List CountRow) :
    totalOf p rows = tot q rows := by
  classical
  unfold totalOf tot
  refine congrArg (fun l : List CountRow => (l.map fun r => r.1).sum) (List.filter_congr fun r _ => ?_)
  rw [Bool.eq_iff_iff, h, decide_eq_true_iff]

theorem sumD_set (q : List Char → Bool) (d : PyDict Int) (k : List Char) (v : Int) :
    sumD q (d.set k v) = sumD q d + if q k then v - (d.get k).getD 0 else 0 := by
  induction d with
  | nil =>
    rw [PyDict.set, sumD_cons]
    show _ + (0 : Int) = 0 + if q k then v - 0 else 0
    split <;> omega
  | cons x d ih =>
    obtain ⟨k', v'⟩ := x
    rw [PyDict.set, PyDict.get]
    split
    · next h =>
      subst h
      rw [sumD_cons, sumD_cons]
      simp only [Option.getD_some]
      split <;> omega
    · rw [sumD_cons, sumD_cons, ih]
      omega

theorem sumD_count (q : List Char → Bool) (d : PyDict Int) (r : CountRow) :
    sumD q (countRow d r) = sumD q d + if q r.2 then r.1 else 0 := by
  rw [countRow, sumD_set]
  split <;> omega

theorem keys_set {α : Type} (d : PyDict α) (k : List Char) (v : α) :
    (d.set k v).map (·.1) = if k ∈ d.map (·.1) then d.map (·.1) else d.map (·.1) ++ [k] := by
  induction d with
  | nil => rfl
  | cons x d ih =>
    obtain ⟨k', v'⟩ := x
    rw [PyDict.set]
    split
    · next h => subst h; simp
    · next h =>
      rw [List.map_cons, ih]
      have : k ∈ List.map (·.1) ((k', v') :: d) ↔ k ∈ d.map (·.1) := by
        simp [Ne.symm h]
      by_cases hk : k ∈ d.map (·.1)
      · rw [if_pos hk, if_pos (this.2 hk)]; rfl
      · rw [if_neg hk, if_neg (fun hh => hk (this.1 hh))]; rfl

/-- What a dictionary of counts contains. -/
structure RightCounts (rows : List CountRow) (d : PyDict Int) : Prop where
  nodup : (d.map (·.1)).Nodup
  sum : ∀ q, sumD q d = tot q rows
  first : ∀ q : List Char → Bool, (d.map (·.1)).find? q = (rows.map (·.2)).find? q

theorem counts_nil : RightCounts [] [] := ⟨by simp, fun _ => rfl, fun _ => rfl⟩

theorem tot_append (q : List Char → Bool) (a b : List CountRow) : tot q (a ++ b) = tot q a + tot q b := by
  unfold tot
  rw [List.filter_append, List.map_append, List.sum_append]

theorem counts_step {rows : List CountRow} {d : PyDict Int} (h : RightCounts rows d) (r : CountRow) :
    RightCounts (rows ++ [r]) (countRow d r) := by
  refine ⟨pyNodup_set h.nodup _ _, fun q => ?_, fun q => ?_⟩
  · rw [sumD_count, h.sum, tot_append, tot_cons]
    show _ = _ + (_ + 0)
    omega
  · rw [countRow, keys_set, List.map_append, List.find?_append, ← h.first]
    split
    · next hm =>
      cases hq : q r.2 with
      | false => simp [hq]
      | true =>
        cases hf : (d.map (·.1)).find? q with
        | some _ => rfl
        | none => exact absurd hq (by simpa using List.find?_eq_none.1 hf _ hm)
    · rw [List.find?_append]
      rfl

theorem counts_rows {rows : List CountRow} {d : PyDict Int} (h : RightCounts rows d) : ∀ (rs : List CountRow),
    RightCounts (rows ++ rs) (rs.foldl countRow d) := by
  intro rs
  induction rs generalizing rows d with
  | nil => simpa using h
  | cons r rs ih =>
    have := ih (counts_step h r)
    simpa using this

theorem get_sum {d : PyDict Int} (hd : (d.map (·.1)).Nodup) {w : List Char} {n : Int} (h : d.get w = some n) :
    sumD (fun v => decide (v = w)) d = n := by
  induction d with
  | nil => cases h
  | cons x d ih =>
    obtain ⟨k, v⟩ := x
    rw [List.map_cons, List.nodup_cons] at hd
    rw [PyDict.get] at h
    rw [sumD_cons]
    split at h
    · next e =>
      subst e
      cases h
      rw [if_pos (by simp)]
      have : sumD (fun v => decide (v = k)) d = 0 := by
        unfold sumD
        rw [List.filter_eq_nil_iff.2]
        · rfl
        · rintro ⟨a, b⟩ hm
          simp only [decide_eq_true_eq]
          rintro rfl
          exact hd.1 (List.mem_map.2 ⟨_, hm, rfl⟩)
      rw [this]
      simp
    · next e =>
      rw [if_neg (by simpa using e), ih hd.2 h]
      omega

theorem get_none_sum {d : PyDict Int} {w : List Char} (h : d.get w = none) : sumD (fun v => decide (v = w)) d = 0 := by
  induction d with
  | nil => rfl
  | cons x d ih =>
    obtain ⟨k, v⟩ := x
    rw [PyDict.get] at h
    split at h
    · cases h
    · next e => rw [sumD_cons, if_neg (by simpa using e), ih h]; rfl

theorem RightCounts.getD {rows : List CountRow} {d : PyDict Int} (h : RightCounts rows d) (w : List Char) :
    (d.get w).getD 0 = totalOf (· = w) rows := by
  rw [totalOf_eq (· = w) (fun v => decide (v = w)) (by simp), ← h.sum]
  cases hg : d.get w with
  | none => rw [get_none_sum hg]; rfl
  | some n => rw [get_sum h.nodup hg]; rfl

theorem RightCounts.key {rows : List CountRow} {d : PyDict Int} (h : RightCounts rows d) (w : List Char) :
    w ∈ d.map (·.1) ↔ ∃ r ∈ rows, r.2 = w := by
  have key : ∀ l : List (List Char), w ∈ l ↔ (l.find? fun v => decide (v = w)).isSome = true := by
    intro l
    rw [List.find?_isSome]
    constructor
    · intro hm; exact ⟨w, hm, by simp⟩
    · rintro ⟨v, hv, e⟩
      have : v = w := by simpa using e
      exact this ▸ hv
  rw [key, h.first, ← key]
  simp

/-! ### Merging -/

/-- One round, as a function of how often the form itself was counted. -/
def mergeOwn (P : Python) (enough : Int → Int → Bool) (own : List Char → Int) (st : Merging) (x : List Char × Int) : Merging :=
  let forms := match st.forms.get (canonicalize P x.1) with
    | some _ => st.forms
    | none => st.forms.set (canonicalize P x.1) (if enough (own (canonicalize P x.1)) x.2 then canonicalize P x.1 else x.1)
  ⟨forms, countRow st.counts (x.2, (forms.get (canonicalize P x.1)).getD [])⟩

/-- Has this form. -/
def hasForm (P : Python) (k w : List Char) : Bool := decide (canonicalize P w = k)

/-- What has been merged: all entries so far, and those of the current dictionary. -/
structure Merged (P : Python) (enough : Int → Int → Bool) (own : List Char → Int) (seen cur : PyDict Int) (st : Merging) :
    Prop where
  forms : ∀ k r, st.forms.get k = some r ↔ ∃ x, (seen.find? fun x => hasForm P k x.1) = some x ∧
    r = if enough (own k) x.2 then k else x.1
  nodup : (st.counts.map (·.1)).Nodup
  counts : ∀ r n, st.counts.get r = some n ↔ ∃ k, st.forms.get k = some r ∧ (∃ x ∈ cur, canonicalize P x.1 = k) ∧
    n = sumD (hasForm P k) cur
  sub : ∀ y ∈ cur, y ∈ seen

variable {P : Python} {enough : Int → Int → Bool} {own : List Char → Int}

theorem Merged.canon {seen cur : PyDict Int} {st : Merging} (h : Merged P enough own seen cur st)
    (hi : ∀ x ∈ seen, canonicalize P (canonicalize P x.1) = canonicalize P x.1) {k r : List Char}
    (hg : st.forms.get k = some r) : canonicalize P r = k := by
  obtain ⟨x, hx, rfl⟩ := (h.forms _ _).1 hg
  have h1 := List.find?_some hx
  have h2 := List.mem_of_find?_eq_some hx
  have h3 : canonicalize P x.1 = k := by simpa [hasForm] using h1
  split
  · rw [← h3]; exact hi x h2
  · exact h3

theorem merged_step {seen cur : PyDict Int} {st : Merging} (h : Merged P enough own seen cur st) {x : List Char × Int}
    (hi : ∀ y ∈ seen ++ [x], canonicalize P (canonicalize P y.1) = canonicalize P y.1) :
    Merged P enough own (seen ++ [x]) (cur ++ [x]) (mergeOwn P enough own st x) ∧
    (∀ k r, st.forms.get k = some r → (mergeOwn P enough own st x).forms.get k = some r) := by
  obtain ⟨k0, hk0⟩ : ∃ k0, canonicalize P x.1 = k0 := ⟨_, rfl⟩
  have hi0 : ∀ y ∈ seen, canonicalize P (canonicalize P y.1) = canonicalize P y.1 := fun y hy => hi y (by simp [hy])
  have hself : ∀ k, hasForm P k x.1 = decide (k0 = k) := by intro k; unfold hasForm; rw [hk0]
  have find : ∀ k, ((seen ++ [x]).find? fun y => hasForm P k y.1) =
      ((seen.find? fun y => hasForm P k y.1).or (if k0 = k then some x else none)) := by
    intro k
    rw [List.find?_append]
    congr 1
    rw [List.find?_cons, hself]
    by_cases e : k0 = k <;> simp [e]
  -- the forms
  have hforms : ∃ forms', (mergeOwn P enough own st x).forms = forms' ∧
      (mergeOwn P enough own st x).counts = countRow st.counts (x.2, (forms'.get k0).getD []) ∧
      (∀ k r, forms'.get k = some r ↔ ∃ y, ((seen ++ [x]).find? fun y => hasForm P k y.1) = some y ∧
        r = if enough (own k) y.2 then k else y.1) ∧ (∀ k r, st.forms.get k = some r → forms'.get k = some r) := by
    unfold mergeOwn
    rw [hk0]
    dsimp only
    refine ⟨_, rfl, rfl, ?_, ?_⟩
    · intro k r
      rw [find]
      cases hg : st.forms.get k0 with
      | some r0 =>
        dsimp only
        rw [h.forms]
        have : ∀ k, k0 = k → ∃ y, (seen.find? fun y => hasForm P k y.1) = some y := by
          rintro k rfl
          obtain ⟨y, hy, _⟩ := (h.forms _ _).1 hg
          exact ⟨y, hy⟩
        cases hf : seen.find? fun y => hasForm P k y.1 with
        | some y => simp
        | none =>
          by_cases e : k0 = k
          · obtain ⟨y, hy⟩ := this k e
            rw [hf] at hy; cases hy
          · simp [e]
      | none =>
        dsimp only
        rw [pyGet_set]
        have hno : (seen.find? fun y => hasForm P k0 y.1) = none := by
          cases hf : seen.find? fun y => hasForm P k0 y.1 with
          | none => rfl
          | some y =>
            have := (h.forms k0 _).2 ⟨y, hf, rfl⟩
            rw [hg] at this; cases this
        by_cases e : k0 = k
        · subst e
          rw [if_pos rfl, if_pos rfl, hno]
          constructor
          · intro e; cases e; exact ⟨x, rfl, rfl⟩
          · rintro ⟨y, e, rfl⟩
            have : x = y := Option.some.inj e
            rw [this]
        · rw [if_neg e, if_neg e, h.forms]
          simp
    · intro k r hr
      cases hg : st.forms.get k0 with
      | some r0 => exact hr
      | none =>
        dsimp only
        rw [pyGet_set]
        split
        · next e => subst e; rw [hg] at hr; cases hr
        · exact hr
  obtain ⟨forms', f1, f2, f3, f4⟩ := hforms
  -- the form of this word
  obtain ⟨r0, hr0⟩ : ∃ r0, forms'.get k0 = some r0 := by
    obtain ⟨y, hy⟩ : ∃ y, ((seen ++ [x]).find? fun y => hasForm P k0 y.1) = some y := by
      rw [find, if_pos rfl]
      cases seen.find? fun y => hasForm P k0 y.1 <;> exact ⟨_, rfl⟩
    exact ⟨_, (f3 _ _).2 ⟨y, hy, rfl⟩⟩
  have hcanon : ∀ {k r}, forms'.get k = some r → canonicalize P r = k := by
    intro k r hg
    obtain ⟨y, hy, rfl⟩ := (f3 _ _).1 hg
    have h1 := List.find?_some hy
    have h2 := List.mem_of_find?_eq_some hy
    have h3 : canonicalize P y.1 = k := by simpa [hasForm] using h1
    split
    · rw [← h3]; exact hi y h2
    · exact h3
  have hr0c := hcanon hr0
  have hnew : ∀ {k}, k ≠ k0 → forms'.get k = st.forms.get k := by
    intro k hk
    cases hg : st.forms.get k with
    | some r => exact f4 _ _ hg
    | none =>
      cases hg' : forms'.get k with
      | none => rfl
      | some r =>
        obtain ⟨y, hy, e⟩ := (f3 _ _).1 hg'
        rw [find, if_neg (Ne.symm hk)] at hy
        have := (h.forms k r).2 ⟨y, by simpa using hy, e⟩
        rw [hg] at this; cases this
  rw [hr0, Option.getD_some] at f2
  refine ⟨⟨?_, ?_, ?_, ?_⟩, ?_⟩
  · rw [f1]; exact f3
  · rw [f2]; exact pyNodup_set h.nodup _ _
  · intro r n
    rw [f1, f2, countRow, pyGet_set]
    split
    · next e =>
      subst e
      -- how often so far
      have hold : (st.counts.get r0).getD 0 = sumD (hasForm P k0) cur := by
        cases hg : st.counts.get r0 with
        | some m =>
          obtain ⟨k, g1, g2, g3⟩ := (h.counts _ _).1 hg
          have : k = k0 := by rw [← hcanon (f4 _ _ g1), hr0c]
          rw [← this]; exact g3
        | none =>
          unfold sumD
          rw [List.filter_eq_nil_iff.2]
          · rfl
          · intro y hy hf
            have hyk : canonicalize P y.1 = k0 := by simpa [hasForm] using hf
            have hsome : ∃ r1, st.forms.get k0 = some r1 := by
              cases hs : st.forms.get k0 with
              | some r1 => exact ⟨r1, rfl⟩
              | none =>
                cases hfi : seen.find? fun z => hasForm P k0 z.1 with
                | none => exact absurd hf (by simpa using List.find?_eq_none.1 hfi y (h.sub y hy))
                | some z =>
                  have := (h.forms k0 _).2 ⟨z, hfi, rfl⟩
                  rw [hs] at this; cases this
            obtain ⟨r1, hr1⟩ := hsome
            have := f4 _ _ hr1
            rw [hr0] at this
            cases this
            have := (h.counts r0 _).2 ⟨k0, hr1, ⟨y, hy, hyk⟩, rfl⟩
            rw [hg] at this; cases this
      dsimp only
      rw [hold]
      have hs : sumD (hasForm P k0) (cur ++ [x]) = sumD (hasForm P k0) cur + x.2 := by
        rw [sumD_snoc, hself]; simp
      constructor
      · intro e
        cases e
        exact ⟨k0, hr0, ⟨x, by simp, hk0⟩, hs.symm⟩
      · rintro ⟨k, g1, _, rfl⟩
        have : k = k0 := by rw [← hcanon g1, hr0c]
        rw [this, hs]
    · next e =>
      rw [h.counts]
      have hk : ∀ {k}, forms'.get k = some r → k ≠ k0 := by
        rintro k g rfl
        rw [hr0] at g
        cases g
        exact e rfl
      have hs : ∀ {k}, k ≠ k0 → sumD (hasForm P k) (cur ++ [x]) = sumD (hasForm P k) cur := by
        intro k hk
        rw [sumD_snoc, hself]; simp [Ne.symm hk]
      constructor
      · rintro ⟨k, g1, ⟨y, hy, g2⟩, rfl⟩
        have g := f4 _ _ g1
        exact ⟨k, g, ⟨y, by simp [hy], g2⟩, (hs (hk g)).symm⟩
      · rintro ⟨k, g1, ⟨y, hy, g2⟩, rfl⟩
        have hne := hk g1
        refine ⟨k, by rw [← hnew hne]; exact g1, ⟨y, ?_, g2⟩, hs hne⟩
        rcases List.mem_append.1 hy with hy | hy
        · exact hy
        · rw [List.mem_singleton] at hy
          subst hy
          exact absurd (hk0.symm.trans g2).symm hne
  · intro y hy
    rcases List.mem_append.1 hy with hy | hy
    · exact List.mem_append_left _ (h.sub y hy)
    · exact List.mem_append_right _ hy
  · rw [f1]; exact f4

theorem merged_fold : ∀ (xs : PyDict Int) {seen cur : PyDict Int} {st : Merging}, Merged P enough own seen cur st →
    (∀ y ∈ seen ++ xs, canonicalize P (canonicalize P y.1) = canonicalize P y.1) →
    Merged P enough own (seen ++ xs) (cur ++ xs) (xs.foldl (mergeOwn P enough own) st) := by
  intro xs
  induction xs with
  | nil => intro seen cur st h _; simpa using h
  | cons x xs ih =>
    intro seen cur st h hi
    have h1 := (merged_step h (x := x) fun y hy => hi y (by
      rcases List.mem_append.1 hy with hy | hy
      · simp [hy]
      · rw [List.mem_singleton] at hy; simp [hy])).1
    have := ih h1 (by simpa using hi)
    simpa using this

theorem merged_nil : Merged P enough own [] [] {} := by
  refine ⟨?_, by simp, ?_, by simp⟩
  · intro k r; simp [PyDict.get]
  · intro r n; simp [PyDict.get]

theorem merged_next {seen cur : PyDict Int} {st : Merging} (h : Merged P enough own seen cur st) :
    Merged P enough own seen [] ⟨st.forms, []⟩ := by
  refine ⟨h.forms, by simp, ?_, by simp⟩
  intro r n; simp [PyDict.get]

theorem mergeOwn_forms {st : Merging} {x : List Char × Int} {k : List Char}
    (h : (mergeOwn P enough own st x).forms.get k = none) : st.forms.get k = none := by
  unfold mergeOwn at h
  dsimp only at h
  split at h
  · exact h
  · rw [pyGet_set] at h
    split at h
    · cases h
    · exact h

theorem mergeOwn_congr {own' : List Char → Int} : ∀ (xs : PyDict Int) {st : Merging},
    (∀ k, (∃ x ∈ xs, canonicalize P x.1 = k) → st.forms.get k = none → own' k = own k) →
    xs.foldl (mergeOwn P enough own') st = xs.foldl (mergeOwn P enough own) st := by
  intro xs
  induction xs with
  | nil => intros; rfl
  | cons x xs ih =>
    intro st h
    rw [List.foldl_cons, List.foldl_cons]
    have : mergeOwn P enough own' st x = mergeOwn P enough own st x := by
      unfold mergeOwn
      cases hg : st.forms.get (canonicalize P x.1) with
      | some _ => rfl
      | none => rw [h _ ⟨x, by simp, rfl⟩ hg]
    rw [this]
    refine ih fun k ⟨y, hy, e⟩ hk => h k ⟨y, by simp [hy], e⟩ (mergeOwn_forms hk)

/-! ### The files -/

theorem rowOfShard_spec {P : Python} {l : List Char} {r : CountRow} (hl : rowOfShard P l = .ok r) : RowOfShard P l r := by
  unfold rowOfShard at hl
  cases hs : splitTab l with
  | none => rw [hs] at hl; cases hl
  | some p =>
    obtain ⟨count, word⟩ := p
    rw [hs] at hl
    dsimp only at hl
    obtain ⟨e, f⟩ := splitTab_some.1 hs
    split at hl
    · cases hl
    · next hw =>
      split at hl
      · cases hl
      · next n hn => cases hl; exact ⟨count, e, f, hw, hn⟩

theorem countShards_spec : ∀ (ts : List (List Char)) {d d' : PyDict Int} {rows : List CountRow}, RightCounts rows d →
    countShards P d ts = .ok d' → ∃ rs, RowsOfAll P ts rs ∧ RightCounts (rows ++ rs) d' := by
  intro ts
  induction ts with
  | nil =>
    intro d d' rows hc h
    cases h
    exact ⟨[], .nil, by simpa using hc⟩
  | cons t ts ih =>
    intro d d' rows hc h
    rw [countShards] at h
    cases hm : (pyLines [] t).mapM (rowOfShard P) with
    | error e => rw [hm] at h; cases h
    | ok rs =>
      rw [hm] at h
      obtain ⟨rs', h1, h2⟩ := ih (counts_rows hc rs) h
      refine ⟨rs ++ rs', .cons (rows_of (fun {l r} hl => ?_) hm) h1, by simpa using h2⟩
      exact rowOfShard_spec hl

theorem firstForm_iff {k : List Char} {rows : List CountRow} {w : List Char} :
    FirstForm P k rows w ↔ (rows.map (·.2)).find? (hasForm P k) = some w := by
  rw [List.find?_eq_some_iff_append]
  constructor
  · rintro ⟨a, c, b, rfl, h1, h2⟩
    refine ⟨by simpa [hasForm] using canonical_iff.1 h1, a.map (·.2), b.map (·.2), by simp, ?_⟩
    intro v hv
    obtain ⟨r, hr, rfl⟩ := List.mem_map.1 hv
    have := h2 r hr
    rw [canonical_iff] at this
    simpa [hasForm] using this
  · rintro ⟨h1, as, bs, e, h2⟩
    obtain ⟨a, b', rfl, rfl, e'⟩ := List.map_eq_append_iff.1 e
    obtain ⟨⟨c, w'⟩, b, rfl, rfl, rfl⟩ := List.map_eq_cons_iff.1 e'
    refine ⟨a, c, b, rfl, canonical_iff.2 (by simpa [hasForm] using h1), fun r hr => ?_⟩
    rw [canonical_iff]
    simpa [hasForm] using h2 r.2 (List.mem_map.2 ⟨r, hr, rfl⟩)

theorem noForm_iff {k : List Char} {rows : List CountRow} :
    (∀ r ∈ rows, ¬ Canonical P r.2 k) ↔ (rows.map (·.2)).find? (hasForm P k) = none := by
  rw [List.find?_eq_none]
  constructor
  · intro h v hv
    obtain ⟨r, hr, rfl⟩ := List.mem_map.1 hv
    have := h r hr
    rw [canonical_iff] at this
    simpa [hasForm] using this
  · intro h r hr
    rw [canonical_iff]
    simpa [hasForm] using h r.2 (List.mem_map.2 ⟨r, hr, rfl⟩)

/-- The first entry of this form. -/
theorem find_entry {rows : List CountRow} {d : PyDict Int} (h : RightCounts rows d) {k : List Char} {x : List Char × Int} :
    (d.find? fun y => hasForm P k y.1) = some x ↔ FirstForm P k rows x.1 ∧ x.2 = totalOf (· = x.1) rows := by
  have hmap : (d.map (·.1)).find? (hasForm P k) = (d.find? fun y => hasForm P k y.1).map (·.1) := List.find?_map ..
  rw [firstForm_iff, ← h.first, hmap]
  have hcnt : ∀ {y : List Char × Int}, (d.find? fun y => hasForm P k y.1) = some y → y.2 = totalOf (· = y.1) rows := by
    intro y hy
    have h2 := List.mem_of_find?_eq_some hy
    rw [← h.getD, (pyMem_iff h.nodup y.1 y.2).1 h2]
    rfl
  constructor
  · intro hf
    exact ⟨by rw [hf]; rfl, hcnt hf⟩
  · rintro ⟨h1, h2⟩
    cases hf : d.find? fun y => hasForm P k y.1 with
    | none => rw [hf] at h1; cases h1
    | some y =>
      rw [hf] at h1
      have e : y.1 = x.1 := Option.some.inj h1
      have := hcnt hf
      rw [e, ← h2] at this
      exact congrArg some (Prod.ext e this)

theorem find_none {rows : List CountRow} {d : PyDict Int} (h : RightCounts rows d) {k : List Char} :
    (d.find? fun y => hasForm P k y.1) = none ↔ ∀ r ∈ rows, ¬ Canonical P r.2 k := by
  have hmap : (d.map (·.1)).find? (hasForm P k) = (d.find? fun y => hasForm P k y.1).map (·.1) := List.find?_map ..
  rw [noForm_iff, ← h.first, hmap]
  simp

theorem merged_file {titles bodies rows : List CountRow} {title body d : PyDict Int} (ht : RightCounts titles title)
    (hb : RightCounts bodies body) (hd : RightCounts rows d) {seen : PyDict Int} {st : Merging}
    (hown : ∀ k, own k = totalOf (· = k) titles + totalOf (· = k) bodies)
    (h : Merged P enough own seen d st)
    (hi : ∀ y ∈ seen, canonicalize P (canonicalize P y.1) = canonicalize P y.1)
    (hs : ∀ k, (∃ x ∈ d, canonicalize P x.1 = k) → (seen.find? fun y => hasForm P k y.1) =
      ((title ++ body).find? fun y => hasForm P k y.1)) :
    MergedFile P (Spelling P enough titles bodies) rows (dumpCounts st.counts) := by
  refine ⟨st.counts.map fun x => (x.2, x.1), ?_, ?_, ?_, ?_⟩
  · unfold dumpCounts pyInt
    rw [List.flatMap_map]
  · rw [List.map_map]; exact h.nodup
  · rw [List.map_map]
    have : ((fun e : CountRow => canonicalize P e.2) ∘ fun x : List Char × Int => (x.2, x.1)) =
        (canonicalize P) ∘ (·.1) := rfl
    rw [this, ← List.map_map]
    refine List.Pairwise.map _ (R := fun a b => a ∈ st.counts.map (·.1) ∧ b ∈ st.counts.map (·.1) ∧ a ≠ b) ?_ ?_
    · rintro a b ⟨ha, hb, hne⟩ e
      have key : ∀ {a}, a ∈ st.counts.map (·.1) → ∃ k, st.forms.get k = some a := by
        intro a ha
        obtain ⟨⟨a', n⟩, hm, rfl⟩ := List.mem_map.1 ha
        obtain ⟨k, hk, _⟩ := (h.counts _ _).1 ((pyMem_iff h.nodup _ _).1 hm)
        exact ⟨k, hk⟩
      obtain ⟨k, hk⟩ := key ha
      obtain ⟨k', hk'⟩ := key hb
      have e1 := h.canon hi hk
      have e2 := h.canon hi hk'
      have : k = k' := by rw [← e1, ← e2, e]
      rw [this, hk'] at hk
      exact hne (Option.some.inj hk).symm
    · have := List.Pairwise.and_mem.1 h.nodup
      exact this.imp fun ⟨a, b, c⟩ => ⟨a, b, c⟩
  · intro n w
    have hm : (n, w) ∈ st.counts.map (fun x => (x.2, x.1)) ↔ (w, n) ∈ st.counts := by
      rw [List.mem_map]
      constructor
      · rintro ⟨⟨a, b⟩, hab, e⟩; cases e; exact hab
      · intro hab; exact ⟨_, hab, rfl⟩
    rw [hm, pyMem_iff h.nodup, h.counts]
    have hrow : ∀ k, (∃ x ∈ d, canonicalize P x.1 = k) ↔ ∃ r ∈ rows, Canonical P r.2 k := by
      intro k
      constructor
      · rintro ⟨x, hx, e⟩
        obtain ⟨r, hr, e'⟩ := (hd.key x.1).1 (List.mem_map.2 ⟨x, hx, rfl⟩)
        exact ⟨r, hr, canonical_iff.2 (by rw [e']; exact e)⟩
      · rintro ⟨r, hr, e⟩
        obtain ⟨x, hx, e'⟩ := List.mem_map.1 ((hd.key r.2).2 ⟨r, hr, rfl⟩)
        exact ⟨x, hx, by rw [e']; exact canonical_iff.1 e⟩
    have htot : ∀ k, sumD (hasForm P k) d = totalOf (fun v => Canonical P v k) rows := by
      intro k
      rw [hd.sum, totalOf_eq _ (hasForm P k)]
      intro v
      rw [canonical_iff]
      simp [hasForm]
    constructor
    · rintro ⟨k, h1, h2, h3⟩
      refine ⟨k, (hrow k).1 h2, ?_, by rw [h3, htot]⟩
      obtain ⟨x, hx, e⟩ := (h.forms _ _).1 h1
      rw [hs k h2, List.find?_append] at hx
      refine ⟨x.1, x.2, ?_, ?_⟩
      · cases hf : title.find? fun y => hasForm P k y.1 with
        | some y =>
          rw [hf] at hx
          have : y = x := Option.some.inj hx
          subst this
          exact .inl ((find_entry ht).1 hf)
        | none =>
          rw [hf] at hx
          exact .inr ⟨(find_none ht).1 hf, (find_entry hb).1 hx⟩
      · rw [← hown]
        cases he : enough (own k) x.2 with
        | true => exact .inl ⟨rfl, by rw [e, he]; rfl⟩
        | false => exact .inr ⟨rfl, by rw [e, he]; rfl⟩
    · rintro ⟨k, h1, ⟨v, m, h2, h3⟩, h4⟩
      have hk := (hrow k).2 h1
      refine ⟨k, (h.forms _ _).2 ⟨(v, m), ?_, ?_⟩, hk, by rw [h4, htot]⟩
      · rw [hs k hk, List.find?_append]
        rcases h2 with h2 | ⟨h2, h2'⟩
        · rw [(find_entry (x := (v, m)) ht).2 h2]; rfl
        · rw [(find_none ht).2 h2, (find_entry (x := (v, m)) hb).2 h2']; rfl
      · rw [← hown] at h3
        rcases h3 with ⟨e, rfl⟩ | ⟨e, rfl⟩ <;> simp [e]

theorem wordFrequency_run (hP : PlainAscii P) {titles bodies : List (List Char)} {title body : PyDict Int}
    (h1 : countShards P [] titles = .ok title) (h2 : countShards P [] bodies = .ok body) {rt rb : List CountRow}
    (ht : RightCounts rt title) (hb : RightCounts rb body) : ∃ t b, wordFrequency P enough titles bodies = .ok (t, b) ∧
      ((∀ r ∈ rt ++ rb, ∀ k, Canonical P r.2 k → ∀ c ∈ k, ¬ Digit c) →
        MergedFile P (Spelling P enough rt rb) rt t ∧ MergedFile P (Spelling P enough rt rb) rb b) := by
  unfold wordFrequency
  rw [h1, h2]
  refine ⟨_, _, rfl, fun hdig => ?_⟩
  have hi : ∀ y ∈ title ++ body, canonicalize P (canonicalize P y.1) = canonicalize P y.1 := by
    intro y hy
    have : ∃ r ∈ rt ++ rb, r.2 = y.1 := by
      rcases List.mem_append.1 hy with hy | hy
      · obtain ⟨r, hr, e⟩ := (ht.key y.1).1 (List.mem_map.2 ⟨y, hy, rfl⟩)
        exact ⟨r, by simp [hr], e⟩
      · obtain ⟨r, hr, e⟩ := (hb.key y.1).1 (List.mem_map.2 ⟨y, hy, rfl⟩)
        exact ⟨r, by simp [hr], e⟩
    obtain ⟨r, hr, e⟩ := this
    have hc : Canonical P r.2 (canonicalize P y.1) := canonical_iff.2 (by rw [e])
    exact canon_idem hP hc (hdig r hr _ hc)
  let own : List Char → Int := fun k => (title.get k).getD 0 + (body.get k).getD 0
  have hown : ∀ k, own k = totalOf (· = k) rt + totalOf (· = k) rb := by
    intro k
    show (title.get k).getD 0 + (body.get k).getD 0 = _
    rw [ht.getD, hb.getD]
  have m1 : Merged P enough own title title (title.foldl (mergeWord P enough title body) {}) :=
    merged_fold (own := own) title merged_nil fun y hy => hi y (List.mem_append_left _ hy)
  generalize hst : title.foldl (mergeWord P enough title body) {} = st at m1 ⊢
  refine ⟨merged_file ht hb ht hown m1 (fun y hy => hi y (List.mem_append_left _ hy)) ?_, ?_⟩
  · rintro k ⟨x, hx, e⟩
    rw [List.find?_append]
    cases hf : title.find? fun y => hasForm P k y.1 with
    | some y => rfl
    | none => exact absurd e (by simpa [hasForm] using List.find?_eq_none.1 hf x hx)
  · have hfold : body.foldl (mergeWord P enough st.counts body) ⟨st.forms, []⟩ =
        body.foldl (mergeOwn P enough own) ⟨st.forms, []⟩ := by
      refine mergeOwn_congr (own' := fun k => (st.counts.get k).getD 0 + (body.get k).getD 0) body ?_
      rintro k ⟨y, hy, rfl⟩ hk
      have hidk := hi y (List.mem_append_right _ hy)
      show (st.counts.get _).getD 0 + _ = (title.get _).getD 0 + _
      congr 1
      have no1 : st.counts.get (canonicalize P y.1) = none := by
        cases hg : st.counts.get (canonicalize P y.1) with
        | none => rfl
        | some n =>
          obtain ⟨k', g1, _⟩ := (m1.counts _ _).1 hg
          have := m1.canon (fun y hy => hi y (List.mem_append_left _ hy)) g1
          rw [hidk] at this
          rw [this] at hk
          have hk : st.forms.get k' = none := hk
          rw [g1] at hk; cases hk
      have no2 : title.get (canonicalize P y.1) = none := by
        cases hg : title.get (canonicalize P y.1) with
        | none => rfl
        | some n =>
          have hm := (pyMem_iff ht.nodup _ _).2 hg
          have hk : st.forms.get (canonicalize P y.1) = none := hk
          cases hf : title.find? fun z => hasForm P (canonicalize P y.1) z.1 with
          | none => exact absurd hidk (by simpa [hasForm] using List.find?_eq_none.1 hf _ hm)
          | some z =>
            have := (m1.forms _ _).2 ⟨z, hf, rfl⟩
            rw [hk] at this; cases this
      rw [no1, no2]
    rw [hfold]
    have m2 := merged_fold (own := own) body (merged_next m1) (by simpa using hi)
    exact merged_file ht hb hb hown m2 hi fun k _ => rfl

theorem wordFrequency_spec (hP : PlainAscii P) {titles bodies : List (List Char)} {t b : List Char}
    (h : wordFrequency P enough titles bodies = .ok (t, b)) : ∃ rt rb, RowsOfAll P titles rt ∧ RowsOfAll P bodies rb ∧
      ((∀ r ∈ rt ++ rb, ∀ k, Canonical P r.2 k → ∀ c ∈ k, ¬ Digit c) →
        MergedFile P (Spelling P enough rt rb) rt t ∧ MergedFile P (Spelling P enough rt rb) rb b) := by
  cases h1 : countShards P [] titles with
  | error e => unfold wordFrequency at h; rw [h1] at h; cases h
  | ok title =>
    cases h2 : countShards P [] bodies with
    | error e => unfold wordFrequency at h; rw [h1, h2] at h; cases h
    | ok body =>
      obtain ⟨rt, ht1, ht⟩ := countShards_spec titles counts_nil h1
      obtain ⟨rb, hb1, hb⟩ := countShards_spec bodies counts_nil h2
      rw [List.nil_append] at ht hb
      obtain ⟨t', b', hr, hm⟩ := wordFrequency_run (enough := enough) hP h1 h2 ht hb
      rw [h] at hr
      cases hr
      exact ⟨rt, rb, ht1, hb1, hm⟩

end Noodle
