import Verif.Model.Str

namespace Booklit

/-- Every LF replaced by CRLF. -/
def crlf : Str → Str
  | [] => []
  | c :: t => if c = '\n' then '\r' :: '\n' :: crlf t else c :: crlf t

end Booklit
