import Verif.Model.Grammar

/-!
The interpreter of the grammar with a log of the attempts at tokens: `/repo/ast/booklit.peg.go`, functions `parseLitMatcher`,
`parseCharClassMatcher` and `parseAnyMatcher`, which call `failAt` and `read`. The log records what these note in the parser and what the
model of `Model/Peg` leaves out: the expected tokens (`maxFailExpected`), and how far the input has been read.
-/

namespace Booklit.Peg

open Booklit

/-- `parseExpr` again (see `run`), with `note` called at each attempt at a token. -/
def runWith {L : Type} (note : Expr → PSt → L → L) (g : Grammar) : Nat → Task → PSt → L → Option (R × L)
  | 0, _, _, _ => none
  | _ + 1, .expr (.lit s), st, l => some (runLit s st, note (.lit s) st l)
  | _ + 1, .expr (.cls neg cs rs), st, l => some (runCls neg cs rs st, note (.cls neg cs rs) st l)
  | _ + 1, .expr .any, st, l => some (runAny st, note .any st l)
  | n + 1, .expr (.seq es), st, l =>
    match runWith note g n (.seq es) st l with
    | some (.fail st', f) => some (.fail (st'.restore st), f)
    | r => r
  | n + 1, .expr (.choice es), st, l => runWith note g n (.choice es) st l
  | n + 1, .expr (.star e), st, l => runWith note g n (.star e) st l
  | n + 1, .expr (.plus e), st, l =>
    match runWith note g n (.expr e) st.push l with
    | some (.ok v st', f) =>
      match runWith note g n (.star e) (st'.pop st) f with
      | some (.ok (.list vs) st'', f') => some (.ok (.list (v :: vs)) st'', f')
      | r => r
    | some (.fail st', f) => some (.fail (st'.pop st), f)
    | r => r
  | n + 1, .expr (.opt e), st, l =>
    match runWith note g n (.expr e) st.push l with
    | some (.ok v st', f) => some (.ok v (st'.pop st), f)
    | some (.fail st', f) => some (.ok .nil (st'.pop st), f)
    | r => r
  | n + 1, .expr (.not e), st, l =>
    match runWith note g n (.expr e) { st.push with invert := !st.invert } l with
    | some (.ok _ st', f) => some (.fail { (st'.pop st).restore st with invert := !st'.invert }, f)
    | some (.fail st', f) => some (.ok .nil { (st'.pop st).restore st with invert := !st'.invert }, f)
    | r => r
  | n + 1, .expr (.label lb e), st, l =>
    match runWith note g n (.expr e) st.push l with
    | some (.ok v st', f) => some (.ok v ((st'.pop st).bind lb v), f)
    | some (.fail st', f) => some (.fail (st'.pop st), f)
    | r => r
  | n + 1, .expr (.rule r), st, l =>
    match runWith note g n (.expr (g.rules r)) st.push l with
    | some (.ok v st', f) => some (.ok v (st'.pop st), f)
    | some (.fail st', f) => some (.fail (st'.pop st), f)
    | r => r
  | n + 1, .expr (.act a e), st, l =>
    match runWith note g n (.expr e) st l with
    | some (.ok _ st', f) =>
      match g.acts a st.pos (st'.sliceFrom st) st'.env st'.store with
      | some (v, store) => some (.ok v { st' with store := store }, f)
      | none => some (.panic st', f)
    | r => r
  | _ + 1, .seq [], st, l => some (.ok (.list []) st, l)
  | n + 1, .seq (e :: es), st, l =>
    match runWith note g n (.expr e) st l with
    | some (.ok v st', f) =>
      match runWith note g n (.seq es) st' f with
      | some (.ok (.list vs) st'', f') => some (.ok (.list (v :: vs)) st'', f')
      | r => r
    | r => r
  | _ + 1, .choice [], st, l => some (.fail st, l)
  | n + 1, .choice (e :: es), st, l =>
    match runWith note g n (.expr e) st.push l with
    | some (.ok v st', f) => some (.ok v (st'.pop st), f)
    | some (.fail st', f) => runWith note g n (.choice es) (st'.pop st) f
    | r => r
  | n + 1, .star e, st, l =>
    match runWith note g n (.expr e) st.push l with
    | some (.ok v st', f) =>
      match runWith note g n (.star e) (st'.pop st) f with
      | some (.ok (.list vs) st'', f') => some (.ok (.list (v :: vs)) st'', f')
      | r => r
    | some (.fail st', f) => some (.ok (.list []) (st'.pop st), f)
    | r => r

end Booklit.Peg
