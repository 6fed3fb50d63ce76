/-
Model of the aliasing semantics of `TabT` (vectors and matrices):
core/include/tsd/tableau.hpp:473-640, 885-940, 1110-1190 and core/src/tableau.cc:145-260, 486-560,
685-720, 807-820, 1048-1133.

A variable of the program is a descriptor (the `Impl` node it owns): a pointer in a buffer, the
dimensions, and whether it is a reference (segment or block) into a buffer owned by another one.
Simplifications:
* dimensions are (rows, columns), a vector having one column;
* element types are one abstract type (no conversion), so that the checks on the scalar type always
  pass;
* a node is owned by one variable (sharing of `Impl` between variables of the untyped class `Tab`
  is not modelled);
* a block keeps the leading dimension of its parent instead of asking the parent at each access (the
  same unless the parent is resized, which invalidates the block anyway);
* memory is not reclaimed except by `resize`, which frees explicitly (views keep their parent alive).
-/
import Mathlib.Data.List.Basic
import Mathlib.Data.Int.Notation

namespace Tableau

/-- Abnormal outcomes: an exception, or undefined behaviour (access out of the buffer or in freed
memory, overlapping `memcpy`). -/
inductive Faute where
  | exception
  | indefini
deriving DecidableEq, Repr

/-- `Tab::Impl`.  core/src/tableau.cc:145-178 -/
structure Noeud where
  /-- `type != VALEUR` (core/src/tableau.cc:478-483) -/
  ref : Bool
  /-- `type == BLOCK` -/
  bloc : Bool
  r : ℕ
  c : ℕ
  tampon : ℕ
  base : ℕ
  /-- leading dimension -/
  ld : ℕ
deriving DecidableEq, Repr

/-- The memory (`none`: freed buffer) and the variables. -/
structure Etat (α : Type) where
  tampons : List (Option (List α))
  vars : ℕ → Option Noeud

variable {α : Type}

/-- Reading `n` consecutive elements.  core/src/tableau.cc:254, 263 (`memcpy`) -/
def lisBloc (e : Etat α) (t k n : ℕ) : Except Faute (List α) :=
  match e.tampons[t]? with
  | some (some l) => if k + n ≤ l.length then .ok ((l.drop k).take n) else .error .indefini
  | _ => .error .indefini

/-- Replacement of the elements of `l` from `k` on by `vs`. -/
def remplace (l : List α) (k : ℕ) (vs : List α) : List α := l.take k ++ vs ++ l.drop (k + vs.length)

/-- Writing consecutive elements.  core/src/tableau.cc:1066, 1079 (`memcpy`) -/
def ecritBloc (e : Etat α) (t k : ℕ) (vs : List α) : Except Faute (Etat α) :=
  match e.tampons[t]? with
  | some (some l) =>
    if k + vs.length ≤ l.length then
      .ok { e with tampons := e.tampons.set t (some (remplace l k vs)) }
    else .error .indefini
  | _ => .error .indefini

/-- `memcpy`: undefined if the zones overlap.  core/src/tableau.cc:1066, 1079 -/
def memcpy (e : Etat α) (td kd ts ks n : ℕ) : Except Faute (Etat α) :=
  if td = ts ∧ 0 < n ∧ kd < ks + n ∧ ks < kd + n then .error .indefini
  else
    match lisBloc e ts ks n with
    | .ok vs => ecritBloc e td kd vs
    | .error f => .error f

/-- The columns `j, j+1, …` (`k` of them) of a node.  core/src/tableau.cc:258-264 -/
def lisCols (e : Etat α) (n : Noeud) : ℕ → ℕ → Except Faute (List α)
  | 0, _ => .ok []
  | k + 1, j =>
    match lisBloc e n.tampon (n.base + j * n.ld) n.r with
    | .error f => .error f
    | .ok v =>
      match lisCols e n k (j + 1) with
      | .error f => .error f
      | .ok w => .ok (v ++ w)

/-- The elements of a node, in column order, as `clone` copies them.
core/src/tableau.cc:241-267 -/
def lisNoeud (e : Etat α) (n : Noeud) : Except Faute (List α) :=
  if n.bloc then lisCols e n n.c 0 else lisBloc e n.tampon n.base (n.r * n.c)

/-- The node of a variable; a moved-from or undeclared variable has none.
core/include/tsd/tableau.hpp:530-538 -/
def noeud (e : Etat α) (x : ℕ) : Except Faute Noeud :=
  match e.vars x with
  | some n => .ok n
  | none => .error .indefini

/-- Binding of a variable to a node. -/
def lie (e : Etat α) (x : ℕ) (n : Noeud) : Etat α :=
  { e with vars := fun y => if y = x then some n else e.vars y }

/-- Allocation of a buffer, bound to `x` (a value).  core/src/tableau.cc:688-722 -/
def alloue (e : Etat α) (x r c : ℕ) (vs : List α) : Etat α :=
  lie { e with tampons := e.tampons ++ [some vs] } x
    { ref := false, bloc := false, r := r, c := c, tampon := e.tampons.length, base := 0, ld := r }

/-- `clone`, bound to `x`.  core/src/tableau.cc:241-267, core/include/tsd/tableau.hpp:571-575 -/
def clone (e : Etat α) (x : ℕ) (n : Noeud) : Except Faute (Etat α) :=
  match lisNoeud e n with
  | .ok vs => .ok (alloue e x n.r n.c vs)
  | .error f => .error f

/-- The node made by `segment(i0, n)`: only the upper bound is checked.
core/src/tableau.cc:515-531 -/
def noeudSegment (p : Noeud) (i0 n : ℤ) : Except Faute Noeud :=
  if i0 + n > p.r then .error .exception
  else if i0 < 0 ∨ n < 0 then .error .indefini
  else .ok { ref := true, bloc := false, r := n.toNat, c := 1, tampon := p.tampon
             base := p.base + i0.toNat, ld := n.toNat }

/-- The node made by `col(num)`: `num <= cols()` is checked.  core/src/tableau.cc:496-513 -/
def noeudCol (p : Noeud) (num : ℕ) : Except Faute Noeud :=
  if p.c < num then .error .exception
  else .ok { ref := true, bloc := false, r := p.r, c := 1, tampon := p.tampon
             base := p.base + num * p.ld, ld := p.r }

/-- The node made by `block(r0, nr, c0, nc)`: nothing is checked.  core/src/tableau.cc:543-554 -/
def noeudBlock (p : Noeud) (r0 nr c0 nc : ℕ) : Noeud :=
  { ref := true, bloc := true, r := nr, c := nc, tampon := p.tampon
    base := p.base + r0 + c0 * p.ld, ld := p.ld }

/-- Column by column copy.  core/src/tableau.cc:1074-1081 -/
def copieCols (e : Etat α) (d s : Noeud) : ℕ → ℕ → Except Faute (Etat α)
  | 0, _ => .ok e
  | k + 1, j =>
    match memcpy e d.tampon (d.base + j * d.ld) s.tampon (s.base + j * s.ld) d.r with
    | .error f => .error f
    | .ok e' => copieCols e' d s k (j + 1)

/-- `copie`, for nodes of the same dimensions.  core/src/tableau.cc:1048-1082 -/
def copieNoeud (e : Etat α) (d s : Noeud) : Except Faute (Etat α) :=
  if !d.bloc && !s.bloc then memcpy e d.tampon d.base s.tampon s.base (d.r * d.c)
  else copieCols e d s d.c 0

/-- `est_de_même_dimensions`, on (rows, columns).  core/src/tableau.cc:191-194 -/
def memesDims (d s : Noeud) : Bool := d.r == s.r && d.c == s.c

/-- `operator =(const TabT &)`: copy into the referenced elements if the target is a reference of the
same dimensions, else the variable is rebound to a clone.
core/include/tsd/tableau.hpp:578-592 -/
def affecte (e : Etat α) (x : ℕ) (d s : Noeud) : Except Faute (Etat α) :=
  if d.ref && memesDims d s then copieNoeud e d s else clone e x s

/-- `operator =(TabT &&)`: copy into the referenced elements if the target is a reference of the
same dimensions, else the variable takes the node of the source.
core/include/tsd/tableau.hpp:546-569 -/
def affecteMove (e : Etat α) (x : ℕ) (d s : Noeud) : Except Faute (Etat α) :=
  if d.ref && memesDims d s then copieNoeud e d s else .ok (lie e x s)

/-- Assignment of a variable to an anonymous view: the same, but rebinding the temporary has no
effect. core/include/tsd/tableau.hpp:578-592 -/
def affecteVue (e : Etat α) (d s : Noeud) : Except Faute (Etat α) :=
  if d.ref && memesDims d s then copieNoeud e d s
  else match lisNoeud e s with
    | .ok _ => .ok e
    | .error f => .error f

/-- Statements of a program on vectors and matrices. -/
inductive Op (α : Type) where
  /-- `TabT x(r, c)` then filled with `vs` -/
  | cree (x r c : ℕ) (vs : List α)
  /-- `TabT x = y` -/
  | copie (x y : ℕ)
  /-- `auto x = y.segment(i0, n)` -/
  | segment (x y : ℕ) (i0 n : ℤ)
  /-- `auto x = y.col(num)` -/
  | col (x y num : ℕ)
  /-- `auto x = y.block(r0, nr, c0, nc)` -/
  | bloc (x y r0 nr c0 nc : ℕ)
  /-- `x = y` -/
  | affecte (x y : ℕ)
  /-- `x = y.segment(i0, n)` -/
  | affecteSegment (x y : ℕ) (i0 n : ℤ)
  /-- `x.segment(i0, n) = y` -/
  | versSegment (x : ℕ) (i0 n : ℤ) (y : ℕ)
  /-- `x.col(num) = y` -/
  | versCol (x num y : ℕ)
  /-- `x.block(r0, nr, c0, nc) = y` -/
  | versBloc (x r0 nr c0 nc y : ℕ)
  /-- `x(i, j) = v` -/
  | pose (x i j : ℕ) (v : α)
  /-- `x *= k`, `x += k`… : `f` applied in place to each element -/
  | surPlace (x : ℕ) (f : α → α)
  /-- `x.resize(r, c)`, the new elements being `vs` -/
  | resize (x r c : ℕ) (vs : List α)

/-- `operator()(i, j) = v`: `raw_data[i + j * rows()]`.  core/include/tsd/tableau.hpp:1141-1156 -/
def pose (e : Etat α) (n : Noeud) (i j : ℕ) (v : α) : Except Faute (Etat α) :=
  ecritBloc e n.tampon (n.base + i + j * n.r) [v]

/-- `operator()(i, j)`.  core/include/tsd/tableau.hpp:1158-1180 -/
def element (e : Etat α) (n : Noeud) (i j : ℕ) : Except Faute (List α) :=
  lisBloc e n.tampon (n.base + i + j * n.r) 1

/-- In-place arithmetic, on `rows × cols` contiguous elements (Eigen map).
core/src/tableau.cc:857-860, 1243-1378 -/
def surPlace (e : Etat α) (n : Noeud) (f : α → α) : Except Faute (Etat α) :=
  match lisBloc e n.tampon n.base (n.r * n.c) with
  | .ok vs => ecritBloc e n.tampon n.base (vs.map f)
  | .error g => .error g

/-- `resize`: frees the buffer if the node owns it, allocates another one.
core/src/tableau.cc:702-711 -/
def resize (e : Etat α) (x : ℕ) (n : Noeud) (r c : ℕ) (vs : List α) : Etat α :=
  if n.r = r ∧ n.c = c then e
  else
    let ts := if n.ref then e.tampons else e.tampons.set n.tampon none
    lie { e with tampons := ts ++ [some vs] } x
      { n with r := r, c := c, tampon := ts.length, base := 0, ld := r }

/-- One statement. The citations are those of the functions used. core/src/tableau.cc:486-560 -/
def Op.fait (e : Etat α) : Op α → Except Faute (Etat α)
  | .cree x r c vs => .ok (alloue e x r c vs)
  | .copie x y =>
    match noeud e y with
    | .ok n => clone e x n
    | .error f => .error f
  | .segment x y i0 n =>
    match noeud e y with
    | .ok p =>
      match noeudSegment p i0 n with
      | .ok s => .ok (lie e x s)
      | .error f => .error f
    | .error f => .error f
  | .col x y num =>
    match noeud e y with
    | .ok p =>
      match noeudCol p num with
      | .ok s => .ok (lie e x s)
      | .error f => .error f
    | .error f => .error f
  | .bloc x y r0 nr c0 nc =>
    match noeud e y with
    | .ok p => .ok (lie e x (noeudBlock p r0 nr c0 nc))
    | .error f => .error f
  | .affecte x y =>
    match noeud e x, noeud e y with
    | .ok d, .ok s => Tableau.affecte e x d s
    | .error f, _ => .error f
    | _, .error f => .error f
  | .affecteSegment x y i0 n =>
    match noeud e x, noeud e y with
    | .ok d, .ok p =>
      match noeudSegment p i0 n with
      | .ok s => affecteMove e x d s
      | .error f => .error f
    | .error f, _ => .error f
    | _, .error f => .error f
  | .versSegment x i0 n y =>
    match noeud e x, noeud e y with
    | .ok p, .ok s =>
      match noeudSegment p i0 n with
      | .ok d => affecteVue e d s
      | .error f => .error f
    | .error f, _ => .error f
    | _, .error f => .error f
  | .versCol x num y =>
    match noeud e x, noeud e y with
    | .ok p, .ok s =>
      match noeudCol p num with
      | .ok d => affecteVue e d s
      | .error f => .error f
    | .error f, _ => .error f
    | _, .error f => .error f
  | .versBloc x r0 nr c0 nc y =>
    match noeud e x, noeud e y with
    | .ok p, .ok s => affecteVue e (noeudBlock p r0 nr c0 nc) s
    | .error f, _ => .error f
    | _, .error f => .error f
  | .pose x i j v =>
    match noeud e x with
    | .ok n => Tableau.pose e n i j v
    | .error f => .error f
  | .surPlace x g =>
    match noeud e x with
    | .ok n => Tableau.surPlace e n g
    | .error f => .error f
  | .resize x r c vs =>
    match noeud e x with
    | .ok n => .ok (Tableau.resize e x n r c vs)
    | .error f => .error f

/-- A program. -/
def execute (e : Etat α) : List (Op α) → Except Faute (Etat α)
  | [] => .ok e
  | o :: p =>
    match o.fait e with
    | .ok e' => execute e' p
    | .error f => .error f

/-- The value of a variable: its dimensions and its elements, in column order. -/
def valeur (e : Etat α) (x : ℕ) : Except Faute (List α) :=
  match noeud e x with
  | .ok n => lisNoeud e n
  | .error f => .error f

/-- `conservativeResize` on a value: the raw memory is kept up to the smaller size, the rest being
indeterminate (`indet`).  core/src/tableau.cc:807-820 -/
def redimensionne (l : List α) (n m : ℕ) (indet : ℕ → α) : List α :=
  l.take (n * m) ++ (List.range (n * m - l.length)).map indet

/-- `int_expr(n, m, f)` (matrices): the buffer has `n` elements, `n * m` are written.
core/include/tsd/tableau.hpp:1120-1129 -/
def intExpr2 (n m : ℕ) (f : ℕ → ℕ → α) : Except Faute (List α) :=
  if n * m ≤ n then
    .ok ((List.range m).flatMap fun j => (List.range n).map fun i => f i j)
  else .error .indefini

/-- `int_expr(n, f)` (vectors).  core/include/tsd/tableau.hpp:1111-1118 -/
def intExpr1 (n : ℕ) (f : ℕ → α) : List α := (List.range n).map f

end Tableau
