import Verif.Model.Page
/-
The menu of dictionaries of the web page, /repo/noodle-webapp/static/index.html:169-172, 606-620 (JavaScript), with the
selectedness of options as in the HTML standard (4.10.7, "selectedness setting algorithm", for a menu of one line without
`multiple`).
-/
namespace Noodle
set_option autoImplicit false

/-- index.html:608: `sort` with `b.len - a.len` (ECMAScript: stable): `x` is put before what follows it and is not longer. -/
def insertLong (x : List Char × Nat) : List (List Char × Nat) → List (List Char × Nat)
  | [] => [x]
  | y :: l => if y.2 ≤ x.2 then x :: y :: l else y :: insertLong x l

def sortLong : List (List Char × Nat) → List (List Char × Nat)
  | [] => []
  | x :: l => insertLong x (sortLong l)

/-- An `option` element in the menu. -/
structure MenuOption where
  label : List Char
  value : List Char
  selected : Bool
  deriving DecidableEq, Repr

/-- HTML: if no option is selected, the first one gets selected; if two or more are, all but the last get unselected. -/
def settle (os : List MenuOption) : List MenuOption :=
  if os.any MenuOption.selected then
    match os.reverse with
    | [] => []
    | r => (keepFirst r).reverse
  else match os with
    | [] => []
    | o :: os => { o with selected := true } :: os
where
  /-- All selected ones after the first are unselected. -/
  keepFirst : List MenuOption → List MenuOption
    | [] => []
    | o :: os => if o.selected then o :: os.map fun o => { o with selected := false } else o :: keepFirst os

/-- index.html:609-619: the menu is emptied and filled again, an option at a time. -/
def fillMenu (os : List MenuOption) : List (List Char × Nat) → List MenuOption
  | [] => os
  | wl :: l =>
    let opt : MenuOption := ⟨wl.1 ++ " (".toList ++ (toString wl.2).toList ++ ")".toList, wl.1, wl.1 == "default".toList⟩
    fillMenu (settle (os ++ [opt])) l

/-- The menu after the page has been loaded; `lists` is the value of `window.WORDLISTS`. -/
def menu (lists : List (List Char × Nat)) : List MenuOption := fillMenu [] (sortLong lists)

/-- HTML: the value of a menu is that of the first option that is selected, or the empty string. -/
def menuValue (os : List MenuOption) : List Char :=
  match os.find? MenuOption.selected with
  | some o => o.value
  | none => []

end Noodle
