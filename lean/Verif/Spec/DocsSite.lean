import Verif.Model.Escape
import Verif.Model.Html

/-!
A page of Booklit's documentation, as its readers have it: title, link to the top, navigation, text.
-/

namespace Booklit.Tmpl

open Booklit

/-- What precedes the title on a page. -/
def docsHead : Str :=
  q%"<!DOCTYPE html>\n<html>\n  <head>\n    <meta http-equiv=\"content-type\" content=\"text/html; charset=utf-8\" />\n    <meta name=\"viewport\" content=\"width=device-width\" />\n    <title>"

/-- What is between the title and the kind of page. -/
def docsLinks : Str :=
  q%"</title>\n    <link rel=\"stylesheet\" type=\"text/css\" href=\"css/iosevka.css\" />\n    <link rel=\"stylesheet\" type=\"text/css\" href=\"css/booklit.css\" />\n    <link rel=\"shortcut icon\" type=\"image/x-icon\" href=\"favicon.ico\" />\n  </head>\n  <body>\n    <div class=\"page"

/-- What is between the link to the top and the entries of the navigation. -/
def docsTagline : Str :=
  q%"\">Booklit</a>\n        <p class=\"tagline\">the little static site engine that could</p>\n      </div>\n\n      <nav class=\"top-nav\">\n        <ul>\n        "

def docsTail : Str :=
  q%"\n    </div>\n    <script data-goatcounter=\"https://booklit.goatcounter.com/count\" async src=\"//gc.zgo.at/count.js\"></script>\n  </body>\n</html>"

/-- An entry of the navigation: a link to a section with its title, marked if the page is in that section. -/
def docsEntry (current : Bool) (url title : Str) : Str :=
  q%"\n          <li" ++ (if current then q%" class=\"current\"" else []) ++ q%"><a href=\"" ++ escURL url ++ q%"\">" ++ title ++ q%"</a></li>\n        "

/-- A page of the documentation. -/
def docsPage (top : Bool) (title home : Str) (entries : List Str) (body : Str) : Str :=
  docsHead ++ escText title ++ docsLinks ++ (if top then q%" top" else []) ++ q%"\">\n      <div class=\"page-header\">\n        <a href=\"" ++
    escURL home ++ docsTagline ++ entries.flatten ++ q%"\n        </ul>\n      </nav>\n\n      " ++ body ++ docsTail

end Booklit.Tmpl
