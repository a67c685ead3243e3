import Verif.Model.Peg

/-!
The booklit grammar `/repo/ast/booklit.peg` (tables in `ast/booklit.peg.go` lines 48-973) and its actions.
-/

namespace Booklit.Peg

open Booklit

/-- Look up a label in the frame; the generated `callon...` functions pass `stack["label"]`, nil if absent. -/
def look (env : List (Lbl × Val)) (l : Lbl) : Val := (env.lookup l).getD .nil

/-- `ifaceStr` (ast/booklit.peg:6-13): concatenates a slice of byte slices; `none` is a failed assertion. -/
def ifaceStr : Val → Option Str
  | .list vs => go vs
  | _ => none
where
  go : List Val → Option Str
    | [] => some []
    | .bytes t :: vs => (go vs).map (t ++ ·)
    | _ :: _ => none

/-- `ifaceSequences` (ast/booklit.peg:15-22): every element must be a `Sequence`. -/
def ifaceSequences : Val → Option (List (List Node))
  | .list vs => go vs
  | _ => none
where
  go : List Val → Option (List (List Node))
    | [] => some []
    | .node (.seq ns) :: vs => (go vs).map (ns :: ·)
    | _ :: _ => none

/-- `ifaceNodes` (ast/booklit.peg:24-31): every element must be a node. -/
def ifaceNodes : Val → Option (List Node)
  | .list vs => go vs
  | _ => none
where
  go : List Val → Option (List Node)
    | [] => some []
    | .node n :: vs => (go vs).map (n :: ·)
    | _ :: _ => none

/-- The actions (ast/booklit.peg:34-161). Widths of indentation are counted in runes; they are byte
counts in Go, but the text consists of blanks and tabs only. -/
def act : Act → Pos → Str → List (Lbl × Val) → Option Nat → Option (Val × Option Nat)
  | .retNode, _, _, env, s => some (look env .node, s)                       -- peg:34-36, 122-128
  | .retP, _, _, env, s => some (look env .p, s)                             -- peg:38
  | .mkParagraphs, _, _, env, s =>                                           -- peg:38-40
    (ifaceNodes (look env .paragraphs)).map fun ns => (.node (.seq ns), s)
  | .retL, _, _, env, s => some (look env .ln, s)                             -- peg:46
  | .mkParagraph, _, _, env, s =>                                            -- peg:46-48
    (ifaceSequences (look env .lines)).map fun ls => (.node (.para ls), s)
  | .mkLine, _, _, env, s =>                                                 -- peg:50-52, 94-96
    (ifaceNodes (look env .words)).map fun ns => (.node (.seq ns), s)
  | .retVal, _, _, env, s => some (look env .val, s)                         -- peg:54-56
  | .interp, _, _, env, s =>                                                 -- peg:60-66
    match look env .word with
    | .nil => some (.node (.seq []), s)
    | v => some (v, s)
  | .wrapped, _, _, env, s =>                                                -- peg:68-71
    match look env .words with
    | .list vs => (ifaceNodes (.list (look env .firstWord :: vs))).map fun ns => (.node (.seq ns), s)
    | _ => none
  | .split, _, _, _, s => some (.node (.str [' ']), s)                       -- peg:73
  | .text, _, t, _, s => some (.node (.str t), s)                            -- peg:75, 77-81
  | .textTail, _, t, _, s =>                                                 -- peg:75, `c.text[1:]`
    match t with
    | [] => none
    | _ :: t' => some (.node (.str t'), s)
  | .blockLine, _, _, env, s =>                                              -- peg:83-87, 98-102
    match look env .indent, ifaceNodes (look env .words) with
    | .str i, some ns => some (.node (.seq (.str i :: ns)), s)
    | _, _ => none
  | .block, _, _, env, _ =>                                                  -- peg:89-92, 104-107
    (ifaceSequences (look env .lines)).map fun ls => (.node (.pre ls), none)
  | .invoke, pos, _, env, s =>                                               -- peg:109-120
    match ifaceStr (look env .name), ifaceNodes (look env .args) with
    | some fn, some ns => some (.node (.invoke fn ns pos), s)
    | _, _ => none
  | .retNil, _, _, _, s => some (.nil, s)                                    -- peg:130
  | .arg, _, _, env, s =>                                                    -- peg:132-138
    match look env .node with
    | .nil => some (.node (.str []), s)
    | v => some (v, s)
  | .retParas, _, _, env, s => some (look env .paras, s)                     -- peg:140-142
  | .indent, _, t, _, s =>                                                   -- peg:146-161
    let skip := s.getD t.length
    let s' := some skip
    if skip ≤ t.length then some (.str (t.drop skip), s') else some (.str [], s')

/-- `[ \t]*` -/
def blanks : Expr := .star (.cls false [' ', '\t'] [])

/-- The rules (ast/booklit.peg:34-161; ast/booklit.peg.go:48-973). -/
def rules : Rule → Expr
  | .booklit => .act .retNode (.seq [.label .node (.rule .paragraphs), .not .any])         -- peg:34
  | .paragraphs => .act .mkParagraphs (.seq [.star (.rule .commentSpacing),                -- peg:38
      .label .paragraphs (.plus (.act .retP
        (.seq [.label .p (.rule .paragraph), .star (.rule .commentSpacing)])))])
  | .lineBreak => .choice [.lit ['\n'], .lit ['\r', '\n']]                                 -- peg:42
  | .commentSpacing => .choice [.rule .lineBreak, .rule .comment]                          -- peg:44
  | .paragraph => .act .mkParagraph (.label .lines (.plus (.act .retL                      -- peg:46
      (.seq [.label .ln (.rule .line), .opt (.rule .lineBreak)]))))
  | .line => .act .mkLine (.seq [blanks, .label .words (.plus (.rule .word))])             -- peg:50
  | .word => .act .retVal (.seq [.opt (.rule .comment),                                    -- peg:54
      .label .val (.choice [.rule .string, .rule .invoke, .rule .interpolated]),
      .opt (.rule .comment)])
  | .comment => .seq [blanks, .lit ['{', '-'],                                             -- peg:58
      .star (.choice [.rule .comment, .seq [.not (.lit ['-', '}']), .any]]), .lit ['-', '}']]
  | .interpolated => .act .interp (.seq [.lit ['{'], .label .word (.opt (.rule .word)), .lit ['}']])  -- peg:60
  | .wrappedLine => .act .wrapped (.seq [.label .firstWord (.rule .word),                  -- peg:68
      .label .words (.star (.choice [.rule .word, .rule .split]))])
  | .split => .act .split (.seq [.rule .lineBreak, blanks])                                -- peg:73
  | .string => .choice [                                                                   -- peg:75
      .act .text (.label .str (.plus (.cls true ['\\', '{', '}', '\r', '\n'] []))),
      .act .textTail (.seq [.lit ['\\'], .cls false ['\\', '{', '}'] []])]
  | .verbatimString => .choice [                                                           -- peg:77
      .act .text (.label .str (.plus (.cls true ['\r', '\n', '}'] []))),
      .act .text (.seq [.lit ['}'], .not (.lit ['}', '}'])])]
  | .preformattedBlockLine => .act .blockLine (.seq [.label .indent (.rule .indent),       -- peg:83
      .label .words (.star (.rule .word)), .rule .lineBreak])
  | .preformattedBlock => .act .block (.seq [.rule .lineBreak,                             -- peg:89
      .label .lines (.star (.rule .preformattedBlockLine)), blanks])
  | .verbatimLine => .act .mkLine (.label .words (.star (.rule .verbatimString)))          -- peg:94
  | .verbatimBlockLine => .act .blockLine (.seq [.label .indent (.rule .indent),           -- peg:98
      .label .words (.star (.rule .verbatimString)), .rule .lineBreak])
  | .verbatimBlock => .act .block (.seq [.rule .lineBreak,                                 -- peg:104
      .label .lines (.star (.rule .verbatimBlockLine)), blanks])
  | .invoke => .act .invoke (.seq [.lit ['\\'],                                            -- peg:109
      .label .name (.plus (.cls false ['-'] [('a', 'z')])),
      .label .args (.star (.rule .argument))])
  | .verbatimArg => .act .retNode (.seq [.lit ['{', '{', '{'],                             -- peg:122
      .label .node (.choice [.rule .verbatimBlock, .rule .verbatimLine]), .lit ['}', '}', '}']])
  | .preformattedArg => .act .retNode (.seq [.lit ['{', '{'],                              -- peg:126
      .label .node (.rule .preformattedBlock), .lit ['}', '}']])
  | .emptyArg => .act .retNil (.star (.rule .commentSpacing))                              -- peg:130
  | .arg => .act .arg (.seq [.lit ['{'],                                                   -- peg:132
      .label .node (.opt (.choice [.rule .wrappedLine, .rule .paraArg, .rule .emptyArg])), .lit ['}']])
  | .paraArg => .act .retParas (.seq [.label .paras (.rule .paragraphs), blanks])          -- peg:140
  | .argument => .choice [.rule .verbatimArg, .rule .preformattedArg, .rule .arg]          -- peg:144
  | .indent => .act .indent blanks                                                         -- peg:146

/-- The booklit grammar. -/
def booklit : Grammar := ⟨rules, act⟩

/-- Fuel for parsing a document: linear in its length. Theorem `C01_parse_terminates` shows that it always
suffices and that more fuel changes nothing, so it is not a limit of the model. -/
def fuelFor (s : Str) : Nat := 217 * s.length + 200

/-- `ast.ParseReader` / `ast.Parse` (ast/booklit.peg.go: Parse; called by load/processor.go:96) with the
default start rule. `none` (out of fuel) never happens, see `C01_parse_terminates`. -/
def parseDoc (s : Str) : Option Outcome := parse booklit .booklit (fuelFor s) s

end Booklit.Peg
