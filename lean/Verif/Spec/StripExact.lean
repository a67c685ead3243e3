import Verif.Spec.AuxText

/-!
What is looked at when auxiliary content is stripped (C15, C16): all parts of a content but auxiliary elements of sequences (and paragraphs,
preformatted blocks, lists and rows of tables) and missing partials. Auxiliary content that is the whole of something is looked into.
-/

namespace Booklit

/-- A part of a content that is looked at. -/
inductive Content.Within : Content → Content → Prop
  | seq {c : Content} {cs : List Content} : c ∈ cs → c.isAux = false → Within c (.seq cs)
  | para {c : Content} {cs : List Content} : c ∈ cs → c.isAux = false → Within c (.para cs)
  | pre {c : Content} {cs : List Content} : c ∈ cs → c.isAux = false → Within c (.pre cs)
  | list {c : Content} {cs : List Content} {o : Bool} : c ∈ cs → c.isAux = false → Within c (.list cs o)
  | cell {c : Content} {r : List Content} {rs : List (List Content)} : r ∈ rs → c ∈ r → c.isAux = false → Within c (.table rs)
  | ref {s : Nat} {t : Str} {c : Content} {o : Bool} {l : Location} : Within c (.ref s t c o l)
  | styled {st : Str} {b : Bool} {c : Content} {ps : List (Str × Content)} : Within c (.styled st b c ps)
  | part {st k : Str} {b : Bool} {c d : Content} {ps : List (Str × Content)} : (k, d) ∈ ps → d.isNil = false → Within d (.styled st b c ps)
  | title {t : Str} {l : Location} {ti c : Content} : Within ti (.target t l ti c)
  | target {t : Str} {l : Location} {ti c : Content} : Within c (.target t l ti c)
  | link {c : Content} {u : Str} : Within c (.link c u)
  | subject {a b : Content} {ds : List (Content × Content)} : (a, b) ∈ ds → Within a (.defs ds)
  | definition {a b : Content} {ds : List (Content × Content)} : (a, b) ∈ ds → Within b (.defs ds)
  | aux {c : Content} : Within c (.aux c)

/-- A content that is looked at sooner or later. -/
inductive Content.Seen : Content → Content → Prop
  | self {c : Content} : Seen c c
  | inside {a b c : Content} : Content.Within b c → Seen a b → Seen a c

mutual
/-- Auxiliary content that is the whole of something is taken as if it was not auxiliary. -/
def Content.lone : Content → Content
  | .nil => .nil
  | .str s => .str s
  | .seq cs => .seq (loneL cs)
  | .para cs => .para (loneL cs)
  | .pre cs => .pre (loneL cs)
  | .ref s t c o l => .ref s t c.lone o l
  | .sect i => .sect i
  | .toc i => .toc i
  | .styled st b c ps => .styled st b c.lone (loneP ps)
  | .target t l ti c => .target t l ti.lone c.lone
  | .image p d => .image p d
  | .list cs o => .list (loneL cs) o
  | .link c u => .link c.lone u
  | .table rs => .table (loneR rs)
  | .defs ds => .defs (loneD ds)
  | .lazy b i => .lazy b i
  | .aux c => c.lone
def loneL : List Content → List Content
  | [] => []
  | c :: cs => (if c.isAux then c else c.lone) :: loneL cs
def loneP : List (Str × Content) → List (Str × Content)
  | [] => []
  | (k, c) :: ps => (k, c.lone) :: loneP ps
def loneR : List (List Content) → List (List Content)
  | [] => []
  | r :: rs => loneL r :: loneR rs
def loneD : List (Content × Content) → List (Content × Content)
  | [] => []
  | (a, b) :: ds => (a.lone, b.lone) :: loneD ds
end

end Booklit
