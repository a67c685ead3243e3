{"id": "C01", "title": "Parsing always terminates", "statement": "For every document text, parsing finishes and returns either a syntax tree or a parse error; it never loops or recurses forever.", "quantifier": "all finite input texts", "why_tests_cant": "Non-termination can hide in an untested combination of nested comments, blocks and arguments; tests only visit finitely many texts.", "anchors": ["ast/booklit.peg", "ast/booklit.peg.go: parser.parse, parseExpr, parseZeroOrMoreExpr, parseOneOrMoreExpr"]}
{"id": "C02", "title": "Escaped prose round-trips", "statement": "For every text made of paragraphs of non-blank lines, writing it with backslash, brace characters escaped and parsing it yields exactly those paragraphs, those lines and those characters, in order.", "quantifier": "all lists of paragraphs of lines of characters (lines non-blank at the left edge, without CR/LF)", "why_tests_cant": "The set of texts is infinite and the interaction of escapes, comments and greedy words depends on every adjacent pair of characters.", "anchors": ["ast/booklit.peg: Booklit, Paragraphs, Paragraph, Line, Word, String", "ast/booklit.peg.go"]}
{"id": "C03", "title": "Single-line verbatim arguments are exact", "statement": "For every one-line text that does not itself form the closing braces, \\f{{{text}}} passes exactly that text, with no escape processing and no whitespace change.", "quantifier": "all function names and all texts without line breaks in which '}}}' first appears only at the end of text+'}}}'", "why_tests_cant": "Every character and every run of braces would have to be tried.", "anchors": ["ast/booklit.peg: VerbatimArg, VerbatimLine, VerbatimString, Split"]}
{"id": "C04", "title": "Verbatim blocks drop exactly the first line's indentation", "statement": "For every list of lines, a \\f{{{ block }}} yields one preformatted line per source line, each with the first line's indentation width removed from its own indentation (all of it when shorter) and otherwise unchanged.", "quantifier": "all lists of lines, all indentations, all function names", "why_tests_cant": "Depends on a parser-global counter that survives backtracking; only a proof covers all indent combinations.", "anchors": ["ast/booklit.peg: VerbatimBlock, VerbatimBlockLine, Indent", "ast/booklit.peg.go"]}
{"id": "C05", "title": "Comments leave no trace", "statement": "For every well-nested comment placed between two pieces of text, the parse is the same as without the comment.", "quantifier": "all comment bodies with arbitrarily deep nesting, all neighbouring text", "why_tests_cant": "Nesting depth is unbounded.", "anchors": ["ast/booklit.peg: Comment, CommentSpacing, Word, Line"]}
{"id": "C06", "title": "CRLF and LF sources are equivalent", "statement": "Replacing every LF by CRLF in a document changes neither whether it parses nor the syntax tree, apart from recorded source positions.", "quantifier": "all texts without CR", "why_tests_cant": "Every rule that touches a line break would need a test for every context.", "anchors": ["ast/booklit.peg: LineBreak, Split, String, VerbatimString"]}
{"id": "C07", "title": "Recorded call locations are the real ones", "statement": "Every function call in a parsed document carries the line, column and offset at which its backslash really stands, and the function's name follows it there.", "quantifier": "all documents that parse, all calls inside them at any nesting depth", "why_tests_cant": "Positions depend on the whole preceding text and on backtracking.", "anchors": ["ast/booklit.peg: Invoke", "ast/booklit.peg.go: read, restore", "ast/node.go: Location"]}
{"id": "C08", "title": "Syntax trees have the documented shape", "statement": "Every successful parse is a non-empty sequence of non-empty paragraphs of non-empty lines; literal strings never contain line breaks; function names are non-empty and consist of a-z and '-'.", "quantifier": "all documents that parse", "why_tests_cant": "Universal over inputs.", "anchors": ["ast/booklit.peg", "ast/node.go"]}
{"id": "C09", "title": "The parser never fails internally", "statement": "No input makes a parser action fail a type assertion: every rejection is an ordinary syntax error with a position.", "quantifier": "all input texts", "why_tests_cant": "Type assertions on interface values depend on which alternative matched.", "anchors": ["ast/booklit.peg: ifaceNodes, actions", "ast/booklit.peg.go: parse (recover)"]}
{"id": "C10", "title": "Syntax errors point into the document", "statement": "The position of a parse error lies within the document (at most its end) with the line and column of that offset.", "quantifier": "all documents that fail to parse", "why_tests_cant": "The furthest-failure position depends on all alternatives tried.", "anchors": ["ast/booklit.peg.go: failAt, maxFailPos", "ast/errors.go: UnpackError", "load/processor.go: EvaluateFile"]}
{"id": "C11", "title": "Every syntax tree can be written down", "statement": "For every canonical syntax tree (nested calls, every argument form), printing it and parsing the result gives the tree back, up to positions.", "quantifier": "all canonical syntax trees of unbounded size and nesting", "why_tests_cant": "Round-trips need induction over trees.", "anchors": ["ast/booklit.peg", "ast/node.go"]}
{"id": "C12", "title": "Indentation of nested preformatted blocks is independent", "statement": "A preformatted block nested in another one is dedented by its own first line and does not alter the dedent of the outer one.", "quantifier": "all pairs of nested blocks", "why_tests_cant": "Holds or fails depending on the order in which a global is set and deleted.", "anchors": ["ast/booklit.peg: PreformattedBlock, Indent (globalStore indent-skip)"]}
{"id": "C13", "title": "Append keeps everything, in order", "statement": "Appending any number of contents yields content whose elements are those of the first followed by all the others (nil ones skipped).", "quantifier": "all first contents and all lists of further contents", "why_tests_cant": "Variadic arity is unbounded.", "anchors": ["append.go: Append"]}
{"id": "C14", "title": "Stripping auxiliary content is complete and idempotent", "statement": "StripAux leaves no auxiliary content anywhere it looks, is idempotent, and leaves content without auxiliary parts unchanged.", "quantifier": "all content trees", "why_tests_cant": "Trees are unbounded.", "anchors": ["aux_.go: StripAux, stripAuxSeq"]}
{"id": "C15", "title": "Stripping auxiliary content never crashes", "statement": "StripAux returns for every content a document can produce.", "quantifier": "all content trees including references and targets without display content", "why_tests_cant": "Crash depends on nil fields deep in a tree.", "anchors": ["aux_.go: VisitReference, VisitTarget", "section.go: defaultTag"]}
{"id": "C16", "title": "Stripping removes auxiliary content and nothing else", "statement": "The plain text of StripAux(c) is the plain text of c with exactly the auxiliary parts left out.", "quantifier": "all content trees of text, sequences and styled content", "why_tests_cant": "Trees are unbounded.", "anchors": ["aux_.go", "docs/lit/baselit.lit: aux"]}
{"id": "C17", "title": "Automatic tags are clean and stable", "statement": "A section's automatic tag contains only a-z, 0-9, '-' and '_', depends only on the title's text without auxiliary parts, and re-deriving a tag from it gives the same tag.", "quantifier": "all titles", "why_tests_cant": "All Unicode strings.", "anchors": ["section.go: defaultTag"]}
{"id": "C18", "title": "Section numbers are unique and positional", "statement": "In every section tree the number of a section spells its path of 1-based positions from the root; two different sections never share a number.", "quantifier": "all section trees, all pairs of sections", "why_tests_cant": "Trees unbounded.", "anchors": ["section.go: Number"]}
{"id": "C19", "title": "Tree queries agree", "statement": "Top, Depth, Contains and IsOrHasChild agree with the parent/child structure: every section has the same top, depth is the number of ancestors, and Contains holds exactly for descendants-or-self.", "quantifier": "all section trees, all pairs of sections", "why_tests_cant": "Trees unbounded.", "anchors": ["section.go: Top, Depth, Contains, IsOrHasChild"]}
{"id": "C20", "title": "Next/Prev navigation is complete and consistent", "statement": "Following Next from the top visits, in document order and once each, exactly the sections all of whose ancestors are split; Prev leads to the preceding sibling or the parent and always ends at the top.", "quantifier": "all section trees", "why_tests_cant": "Trees unbounded; navigation climbs arbitrarily many levels.", "anchors": ["section.go: Next, NextSibling, Prev"]}
{"id": "C21", "title": "Tag lookup is complete and location-independent", "statement": "FindTag finds every tag of that name in the whole tree exactly once, from whichever section it is asked.", "quantifier": "all section trees, all starting sections, all names", "why_tests_cant": "Up/down recursion with exclusion over arbitrary trees.", "anchors": ["section.go: FindTag, filterTags"]}
{"id": "C22", "title": "References resolve to the one tag or fail loudly", "statement": "A reference resolves iff exactly one tag of that name exists in the book; otherwise it is an unknown-tag or ambiguous-tag error (or, if optional, no tag), and the result does not depend on where the reference is.", "quantifier": "all trees, all references", "why_tests_cant": "Depends on the whole tree.", "anchors": ["reference.go: Tag, resolve, Display"]}
{"id": "C23", "title": "Header levels are valid", "statement": "The header level of every section is between 1 and 6 and equals one plus the depth within its page, capped.", "quantifier": "all section trees", "why_tests_cant": "Trees unbounded.", "anchors": ["section.go: PageDepth", "render/html.go: headerDepth"]}
{"id": "C24", "title": "Every link targets a page that is written", "statement": "The file named by the URL of any section tag is among the files that writing the book produces, and is the page the section is rendered on.", "quantifier": "all section trees, all split/single-page configurations", "why_tests_cant": "Page ownership is decided by flags along the whole ancestor chain.", "anchors": ["render/common.go: sectionPageOwner, sectionURL", "render/writer.go: WriteSection, writeSingleSection"]}
{"id": "C25", "title": "Every section is rendered on exactly one page", "statement": "Each section of the tree is inlined in exactly one written page.", "quantifier": "all section trees", "why_tests_cant": "Trees unbounded.", "anchors": ["render/html/section.tmpl", "render/writer.go: WriteSection", "render/common.go"]}
{"id": "C26", "title": "Pages do not overwrite each other", "statement": "Different pages are written to different files when their primary tags differ.", "quantifier": "all section trees", "why_tests_cant": "Trees unbounded; collisions depend on tag derivation.", "anchors": ["render/writer.go: writeSingleSection", "section.go: SetTitle"]}
{"id": "C27", "title": "single-page wins over split-sections", "statement": "When a section declares single-page, neither it nor any section below it is split.", "quantifier": "all documents and declaration orders", "why_tests_cant": "Order of declarations across nested sections is unbounded.", "anchors": ["baselit/plugin.go: SinglePage, SplitSections", "section.go: SplitSectionsPrevented"]}
{"id": "C28", "title": "Loaded documents form a proper tree", "statement": "After any successful load, each child's parent is the section it is listed under, no section is listed twice, and there is one root.", "quantifier": "all documents, includes, plugins", "why_tests_cant": "Induction over evaluation.", "anchors": ["load/processor.go", "baselit/plugin.go: Section, IncludeSection", "stages/evaluate.go"]}
{"id": "C29", "title": "Sections are isolated", "statement": "Evaluating a section never changes any other already existing section except to append itself to its parent's children.", "quantifier": "all documents and states", "why_tests_cant": "Any function in any nested section could interfere.", "anchors": ["stages/evaluate.go", "baselit/plugin.go", "load/processor.go"]}
{"id": "C30", "title": "Plugin inheritance", "statement": "Inline sections start with exactly the plugins their parent has at that point; included files start with only the base plugin.", "quantifier": "all documents", "why_tests_cant": "Depends on evaluation order across files.", "anchors": ["load/processor.go: EvaluateFile, EvaluateNode", "baselit/plugin.go: Section, IncludeSection", "docs/lit/plugins.lit"]}
{"id": "C31", "title": "Function lookup is first-plugin-first", "statement": "A call runs the method of the first plugin (in order of use) that has it; base functions cannot be shadowed; if none has it the call is an undefined-function error at the call's location.", "quantifier": "all plugin lists, all calls", "why_tests_cant": "All plugin combinations.", "anchors": ["stages/evaluate.go: VisitInvoke"]}
{"id": "C32", "title": "A title cannot be set twice", "statement": "Within one section a second \\title after a successful non-empty one is an error and changes nothing.", "quantifier": "all documents", "why_tests_cant": "Depends on evaluation history.", "anchors": ["baselit/plugin.go: Title"]}
{"id": "C33", "title": "Errors are reported at the innermost failing call", "statement": "A located error raised inside any nesting of sections and arguments is reported unchanged by every enclosing call; an unlocated one is wrapped once, with the location of the call that raised it.", "quantifier": "all documents", "why_tests_cant": "Nesting unbounded.", "anchors": ["stages/evaluate.go: VisitInvoke", "errors.go"]}
{"id": "C34", "title": "Children appear in source order", "statement": "The children of a section are its inline and included sections in the order the calls appear in the source.", "quantifier": "all documents", "why_tests_cant": "Induction over evaluation.", "anchors": ["baselit/plugin.go: Section, IncludeSection", "stages/evaluate.go: VisitSequence"]}
{"id": "C35", "title": "Evaluation does not crash", "statement": "Evaluating any parsed document with the base plugin ends in a section or an error, never a crash.", "quantifier": "all documents", "why_tests_cant": "nil contents appear only for unusual arguments.", "anchors": ["stages/evaluate.go: VisitInvoke, convert, evalArg"]}
{"id": "C36", "title": "Loading terminates without include cycles", "statement": "If the include relation between files is acyclic, loading terminates.", "quantifier": "all finite file systems", "why_tests_cant": "Include graphs are unbounded.", "anchors": ["load/processor.go: EvaluateFile", "baselit/plugin.go: IncludeSection"]}
{"id": "C37", "title": "Arity and argument types are respected", "statement": "A method is called only with as many arguments as it declares (at least the fixed ones when variadic), each converted to the declared type; otherwise the call is an error and the method does not run.", "quantifier": "all calls, all signatures", "why_tests_cant": "All signatures.", "anchors": ["stages/evaluate.go: VisitInvoke, convert"]}
{"id": "C38", "title": "Plugins see the location of their own call", "statement": "While a method runs, the section's invoke location is the location of the call being executed.", "quantifier": "all documents", "why_tests_cant": "Nested calls in arguments overwrite a shared field.", "anchors": ["section.go: InvokeLocation", "stages/evaluate.go: VisitInvoke"]}
{"id": "C39", "title": "Prose survives loading", "statement": "For every prose text, loading its escaped source gives a section whose body's plain text is the text, lines of a paragraph joined by one space.", "quantifier": "all lists of paragraphs of lines", "why_tests_cant": "End-to-end through parser and evaluator.", "anchors": ["ast/booklit.peg", "stages/evaluate.go", "paragraph.go: String", "sequence.go: String"]}
{"id": "C40", "title": "Function names map to distinct methods", "statement": "Two canonical function names (words of a-z separated by single dashes) that differ call different methods.", "quantifier": "all pairs of canonical names", "why_tests_cant": "Infinite set of names.", "anchors": ["ast/node.go: Invoke.Method"]}
{"id": "C41", "title": "Tables and definitions keep their cells", "statement": "\\table and \\definitions produce exactly the rows/pairs given, in order, or an error; never a silently shortened table.", "quantifier": "all argument lists", "why_tests_cant": "Lists unbounded.", "anchors": ["baselit/plugin.go: Table, TableRow, Definitions, Definition"]}
{"id": "C42", "title": "Every target becomes exactly one tag", "statement": "After collection each target reachable in a section's title, body or partials is one anchored tag of that section, in document order, whatever order partials are visited in.", "quantifier": "all content trees, all iteration orders of the partials map", "why_tests_cant": "Map iteration order is nondeterministic.", "anchors": ["stages/collect.go"]}
{"id": "C43", "title": "Collection changes only tags", "statement": "Collecting changes nothing in the section tree but the tag lists, to which it only appends.", "quantifier": "all section trees", "why_tests_cant": "Trees unbounded.", "anchors": ["stages/collect.go", "section.go: SetTagAnchored"]}
{"id": "C44", "title": "The parse cache never serves stale documents", "statement": "For every interleaving of loads and file edits with increasing modification times, a load that starts after an edit uses the edited text or a newer one, and a load that starts after the file was removed fails.", "quantifier": "all histories and schedules of any number of loaders and editors", "why_tests_cant": "Schedules are unbounded.", "anchors": ["load/processor.go: EvaluateFile"]}
{"id": "C45", "title": "Lazy content is computed once", "statement": "Under every schedule of concurrent Force calls the generator runs at most once and all callers get the same result.", "quantifier": "all schedules, any number of callers", "why_tests_cant": "Schedules.", "anchors": ["lazy.go: Lazy.Force"]}
{"id": "C46", "title": "Template reloading is up to date", "statement": "After LoadTemplates succeeds, the templates in use are those in the directory.", "quantifier": "all histories of edits and loads", "why_tests_cant": "Histories.", "anchors": ["render/html.go: LoadTemplates", "render/text.go: LoadTemplates"]}
{"id": "C47", "title": "Server routes agree with page URLs", "statement": "Requesting from the dev server the path of a page URL renders the section owning the page.", "quantifier": "all trees and tags", "why_tests_cant": "All names.", "anchors": ["booklitcmd/server.go: loadRequestedSection", "render/common.go: sectionURL"]}
{"id": "C48", "title": "Concurrent responses are not mixed", "statement": "Under every schedule each request receives the rendering of the section it asked for.", "quantifier": "all schedules of any number of requests", "why_tests_cant": "Schedules.", "anchors": ["booklitcmd/server.go: ServeHTTP", "render/html.go: engine state"]}
{"id": "C49", "title": "The search index covers every tag", "statement": "The search index has an entry for every tag name in the tree and no others, pointing to a written page.", "quantifier": "all section trees", "why_tests_cant": "Trees unbounded.", "anchors": ["render/writer.go: WriteSearchIndex, loadTags"]}
{"id": "C50", "title": "Error annotations show the right line", "statement": "For every located error the annotated prefix, marked part and suffix make up the source line at the reported line number.", "quantifier": "all files, all locations", "why_tests_cant": "All files.", "anchors": ["errors.go: AnnotatedHTML, lineInQuestion"]}
{"id": "C51", "title": "Transforming text keeps the rest", "statement": "Regex-transforming a string splits it into pieces whose concatenation is the original text, each match transformed exactly once.", "quantifier": "all strings and match lists", "why_tests_cant": "All strings.", "anchors": ["chroma/plugin.go: TransformAll"]}
{"id": "C52", "title": "Text cannot inject markup", "statement": "Rendering a text never produces markup characters other than entities, and unescaping gives the text back.", "quantifier": "all strings", "why_tests_cant": "All strings.", "anchors": ["render/html/string.tmpl", "render/html.go"]}
{"id": "C53", "title": "Styled templates fall back", "statement": "Rendering a section whose style has no template of its own uses the default template.", "quantifier": "all sections, all template sets", "why_tests_cant": "All template sets.", "anchors": ["render/html.go: RenderSection, VisitSection", "render/text.go: RenderSection"]}
{"id": "C54", "title": "Output stays in the destination", "statement": "Every page is written directly under the output directory.", "quantifier": "all section trees and tags", "why_tests_cant": "All tag names.", "anchors": ["render/writer.go: writeSingleSection"]}
{"id": "C55", "title": "Tables of contents list exactly what is not omitted", "statement": "The table of contents lists, in order, every section below except descendants of sections that omit their children.", "quantifier": "all section trees", "why_tests_cant": "Trees unbounded.", "anchors": ["render/html/toc.tmpl", "render/html.go"]}
{"id": "C56", "title": "Plugin registration", "statement": "Looking up a plugin gives the one most recently registered under that name.", "quantifier": "all registration histories", "why_tests_cant": "Histories.", "anchors": ["plugin.go"]}
{"id": "C57", "title": "Partials: last write wins", "statement": "Partial(name) is the content of the last SetPartial(name), untouched by writes to other names.", "quantifier": "all histories of SetPartial", "why_tests_cant": "Histories.", "anchors": ["section.go: SetPartial, Partial"]}
{"id": "C58", "title": "A lone block is not wrapped in a paragraph", "statement": "Evaluated paragraphs never consist of a single block element and never are empty.", "quantifier": "all documents", "why_tests_cant": "All documents.", "anchors": ["stages/evaluate.go: VisitParagraph"]}
{"id": "C59", "title": "Tags belong to their sections", "statement": "In a loaded book every tag belongs to the section it is listed in; tags without anchor carry the title, the primary tag is the first of them; anchored tags are anchored at their own name.", "quantifier": "all sequences of loads, all documents", "why_tests_cant": "All documents.", "anchors": ["section.go: SetTitle, SetTag, SetTagAnchored", "stages/collect.go", "baselit/plugin.go: Title"]}
{"id": "C60", "title": "HasAnchors and AnchorTags tell the truth", "statement": "A section reports anchors exactly when it or a section shown on the same page below it has an anchored tag; AnchorTags lists exactly its own anchored tags, in order.", "quantifier": "all section trees", "why_tests_cant": "Trees unbounded.", "anchors": ["section.go: HasAnchors, AnchorTags"]}
{"id": "C61", "title": "Included files are relative to the including file", "statement": "The path given to include-section is looked up relative to the directory of the file the call is written in, also when the call is in an inline section or in an included file.", "quantifier": "all documents and file systems", "why_tests_cant": "Includes nest without bound.", "anchors": ["baselit/plugin.go: IncludeSection", "section.go: FilePath"]}
{"id": "C62", "title": "Section settings come from the section's own calls", "statement": "single-page, split-sections and omit-children-from-table-of-contents set their flag on exactly the section they are run in; style, title location and partials are only ever set by calls run in the section itself.", "quantifier": "all documents", "why_tests_cant": "Calls nest in arguments and sections without bound.", "anchors": ["baselit/plugin.go", "stages/evaluate.go: VisitInvoke"]}
{"id": "C63", "title": "Errors and recorded places point at the call in the source they are about", "statement": "Whenever loading a document fails with an error that names a place, the place is right: a parse error is where that file stops to parse, an unknown or failing function really is written at the line, column and offset reported in the file reported, and both places of the second-title error are calls in that file. The places kept in sections (of inline sections, titles, tags, targets and references) are calls in the file of the section too.", "quantifier": "all files, include graphs, plugins, previously loaded documents and errors", "why_tests_cant": "The place is threaded through nested calls, inline sections, included files and plugin errors; a test pins one error in one document, and a stale or parent location only shows in some nesting.", "anchors": ["stages/evaluate.go: VisitInvoke", "load/processor.go: EvaluateFile, EvaluateNode", "baselit/plugin.go: Title, Section, Reference, Target", "errors.go: ErrorLocation", "section.go: FilePath"]}
{"id": "C64", "title": "Loaded content comes from the source", "statement": "Everything found in the title, body, partials and tags of a section after loading has its origin in the file of that section: a text is a text of the file (or the name of a target without a title), a reference is made by a \\reference written there, to that tag, and starts from that section, a link goes where the \\link in the file says, and so on for images, lists, tables, definitions, styled and auxiliary content; what a plugin returns is the only other source.", "quantifier": "all files, include graphs, plugins, previously loaded documents, sections and parts of contents", "why_tests_cant": "Content leaking from another section, another file or an earlier load only shows with particular combinations of includes and nesting.", "anchors": ["stages/evaluate.go", "baselit/plugin.go", "load/processor.go", "stages/collect.go"]}
{"id": "C65", "title": "No dead links inside a book", "statement": "On every page of a built book, every link made by a reference or a table of contents leads to the file of a page of the same book, and if it has a fragment, that page has an anchor with this id.", "quantifier": "all loaded documents and section trees, all pages, all links", "why_tests_cant": "Ranges over all combinations of sections, splitting, tags, targets and references.", "anchors": ["render/html/reference.tmpl", "render/html/toc.tmpl", "render/html/target.tmpl", "render/html/section.tmpl", "render/common.go sectionURL", "section.go FindTag", "stages/collect.go"]}
{"id": "C66", "title": "A page shows its sections, faithfully and in order", "statement": "Reading a rendered page as HTML gives a document whose title is the text of the section's title and whose body is the section: a header of the right level with the anchor of its tag, its number in the book and its title, then its body, then the sections below that have no page of their own, in order. Every text, style, list, table, definition, image and link stands there with its own text, element and address, a reference shows its own content or else the title of the one tag it names and leads to that tag's page and anchor, and nothing but blanks is added.", "quantifier": "all loaded documents and section trees, all sections, all contents", "why_tests_cant": "Pages are put together from templates that call each other recursively; a dropped, doubled or swapped part only shows for particular nestings.", "anchors": ["render/html.go", "render/html/section.tmpl", "render/html/reference.tmpl", "render/html/toc.tmpl", "render/html/page.tmpl", "render/html/*.tmpl", "render/common.go: sectionURL, headerDepth", "section.go: Number, FindTag"]}
{"id": "C67", "title": "A document in order is always rendered", "statement": "If every reference in a document names exactly one tag, every text that is shown elsewhere (titles, texts of references) is complete, every section below the top has a title when there is a table of contents, and styles have templates, then every section has a page: rendering it terminates, without error or panic, always with the same result.", "quantifier": "all loaded documents of any size and nesting, all sections, all build settings, all plugins that add no references, sections, tables of contents or deferred content of their own", "why_tests_cant": "Rendering follows references to titles which may hold references, in any cyclic arrangement; tests render a few documents and cannot show that no arrangement loops, fails or panics.", "anchors": ["render/html.go: RenderSection, VisitReference, VisitTableOfContents, VisitSection", "render/html/*.tmpl", "reference.go: Tag", "aux_.go: StripAux"]}
{"id": "C68", "title": "A build writes the book and nothing else", "statement": "Building a loaded book into a directory succeeds when its pages can be rendered and the file system has no objections; afterwards the file of each page holds a complete page that belongs there and, if asked for, the search index file holds the index. No other file is ever touched, also when the build fails half way, and none at all if loading fails or the output goes to the standard output.", "quantifier": "all documents, engines, output directories, earlier contents of the disk, and failures of the operating system", "why_tests_cant": "Trees, splits, tags and failures combine without bound; a test sees one disk and one failure.", "anchors": ["booklitcmd/command.go: Build", "render/writer.go: WriteSection, writeSingleSection, WriteSearchIndex"]}
{"id": "C69", "title": "The search index file can be read back", "statement": "Whatever characters titles, texts and tags have, the search index file is JSON that holds under each tag name exactly its entry, does not depend on the order in which Go visits the map, and has no characters that mean something in HTML or scripts. Documents whose titles leave nothing out always have an index.", "quantifier": "all section trees, all texts and tags, all orders of visiting", "why_tests_cant": "Escaping has to be right for every character and every combination; map order is random.", "anchors": ["render/writer.go: WriteSearchIndex, loadTags, SearchDocument"]}
{"id": "C70", "title": "A built site is closed", "statement": "After a successful HTML build every link on every page file, other than those written as links in the book, leads to a file of the output directory, which is a page and has the anchor named in the link.", "quantifier": "all documents, output directories, and earlier contents of the disk", "why_tests_cant": "Combines loading, collecting, references, splitting, URLs, escaping and writing; broken links only show for particular combinations.", "anchors": ["booklitcmd/command.go: Build", "render/writer.go", "render/common.go: sectionURL", "render/html/*.tmpl"]}
{"id": "C71", "title": "A failed build does no damage", "statement": "If a build fails, the files written by an earlier build are kept or replaced by complete new pages.", "quantifier": "all documents, engines, and points of failure", "why_tests_cant": "Every page and every system call is a possible point of failure.", "anchors": ["render/writer.go: writeSingleSection", "booklitcmd/command.go: Build"]}
{"id": "C72", "title": "The section asked for is the one written", "statement": "With --section-tag the section with that tag is rendered, to the standard output or to its file in the output directory.", "quantifier": "all documents and tags", "why_tests_cant": "All trees and splits.", "anchors": ["booklitcmd/command.go: Build", "render/writer.go: WriteSection"]}
{"id": "C73", "title": "Plain text shows the document", "statement": "With the text engine a page is the title and then each section on it: number, title, text and the sections below, in the order of the source, with nothing but white space between. A page is rendered exactly when all it shows is of a kind the text templates know.", "quantifier": "all documents, sections and fuels", "why_tests_cant": "All documents and nestings.", "anchors": ["render/text.go: TextEngine.RenderSection, VisitSection, subRender", "render/text/page.tmpl", "render/text/section.tmpl", "render/text/toc.tmpl"]}
{"id": "C74", "title": "The development server shows what a build would write", "statement": "Whatever a server has answered before and however files were changed since, if changed files have later modification times, it answers each request as a server started now would: same page, same error, or left to the file server. The page at /name.html is the text a build puts into name.html.", "quantifier": "all documents, sequences of requests and edits, paths", "why_tests_cant": "Depends on everything a server keeps between requests: parse cache and section memory, over unbounded histories.", "anchors": ["booklitcmd/server.go: ServeHTTP, loadRequestedSection", "load/processor.go: LoadFile, EvaluateFile", "booklitcmd/command.go: Serve, Build"]}
{"id": "C75", "title": "Errors of references and of the server tell the truth", "statement": "An error of rendering a page is one of a template or of a reference. If a tag is said to be unknown then a \\reference to it is written in the file named, there is a call at the place named, no section of the book has such a tag, and tags suggested are tags of the book. If a tag is said to be ambiguous the book has at least two of that name and the places of all of them are listed, each a call in the file named. Every place told by an error the server answers with is that of a call, or where the file stops to parse.", "quantifier": "all documents, rendered pages, requests and server states", "why_tests_cant": "Errors come up deep inside rendering and refer to places recorded while other files were evaluated.", "anchors": ["reference.go: Reference.Tag, reference.go: UnknownTagError", "section.go: FindTag, SimilarTags, filePath", "booklitcmd/server.go: ServeHTTP"]}
{"id": "C76", "title": "Error pages are sound and complete", "statement": "The page the server answers an error with is well-formed HTML in which nothing but text is shown, whatever is in the files and in the messages: no script, link or image, and no text of a file is taken for markup. It tells, in order, the headlines of the error and of those it wraps, the file, number and text of each line, the marked part, messages, suggested tags and explanations. For functions that are missing or fail the line that has the call is shown with the call marked.", "quantifier": "all errors, file contents, messages, and the errors of all requests", "why_tests_cant": "Escaping has to hold for all bytes in all positions of nested templates.", "anchors": ["errors.go: ErrorResponse, PrettyHTML methods, AnnotatedHTML", "errhtml/page.tmpl", "errhtml/annotated-line.tmpl", "booklitcmd/server.go: ServeHTTP"]}
{"id": "C77", "title": "Reports on the terminal are complete", "statement": "The report of an error begins with the file, the line and what happened. The line of each place is printed with carets directly below it, which begin below the call, whatever the characters before it; also when the report is indented because another error wraps it. Messages, similar tags and the places of ambiguous tags are listed. No report ends in the middle of a line.", "quantifier": "all errors, file contents and messages", "why_tests_cant": "Nested reports go through a writer that holds back unfinished lines; alignment has to hold for all lines and depths.", "anchors": ["errors.go: PrettyPrint methods, Annotate, AnnotateLocation", "booklitcmd/main.go: main"]}
{"id": "C78", "title": "Requests served at the same time do not disturb each other", "statement": "A request that the development server serves while other requests are being served gets the very answer it would get from a server that is started at that time and has nothing else to do, whatever was loaded and changed before. If files are changed while it is being served, each file goes into the answer as it was at some time since the request came in, never older.", "quantifier": "all documents and plugins, all interleavings of other loads with the steps of this load, all histories of edits with increasing modification times", "why_tests_cant": "Loads share a cache that other loads fill at any moment between two of its reads; no schedule of a test covers all of them.", "anchors": ["load/processor.go: EvaluateFile, LoadFile", "booklitcmd/server.go: ServeHTTP, loadRequestedSection"]}
{"id": "C79", "title": "The templates that come with Booklit make the pages described here", "statement": "Executing the texts of the built-in HTML templates, with the contextual escaping of html/template, gives for every section of every book the page that the other properties speak of, byte for byte, or the same error; the same for the plain text templates with text/template. Excluded for HTML are sections and contents with the styles that are names of other built-in templates (string, toc, page, raw-html).", "quantifier": "all books, sections, tags and styles other than those named; all contents plugins can return", "why_tests_cant": "Templates call each other recursively, and whitespace trimming, escaping and dispatch on styles all depend on context; tests see a few pages.", "anchors": ["render/html/*.tmpl", "render/text/*.tmpl", "render/html.go: HTMLEngine, renderFuncs, subRender, setTmpl", "render/text.go: TextEngine, subRender, setTmpl"]}
{"id": "C80", "title": "A template of one's own is used for its style and nowhere else", "statement": "Two sets of templates that differ only in templates for styles nothing in a book has make the same pages of that book, with the same errors. In particular a directory of templates for other styles changes no page of a book, with either engine, even if loading it fails half way, and copies of templates that come with Booklit change nothing. Names that Booklit uses by itself (page, section, paragraph and the other kinds of content) and style-page are excluded, as are templates that other templates call.", "quantifier": "all sets of templates, in the template language modelled; all books, contents, pages and steps", "why_tests_cant": "Which templates a page uses is decided while templates are executed, from values that other templates pass on.", "anchors": ["render/html.go: LoadTemplates, setTmpl, VisitStyled, VisitSection, RenderSection", "render/text.go: LoadTemplates, setTmpl, VisitStyled"]}
{"id": "C81", "title": "The exit status can be relied on", "statement": "A command that builds a book ends with status 0 if and only if the build was successful, and then each page of the book is in its file and, if asked for, the search index, whatever the operating system refused to do; all other files are as before. With status 1, the error is reported on the standard error, ended by a line feed. With --out nothing is written to the standard output, without it no file is touched. Without template flags the command makes the pages of the built-in templates; templates for the engine that is not used, templates for styles that are not used, and directories without templates change nothing; a template that does not parse makes the command fail before anything is written. With plugins, the command ends as a program does that is linked with them.", "quantifier": "all flags, files, plugins, template directories, earlier contents of the disk, and failures of the operating system", "why_tests_cant": "Tests run the command on a few books on a disk that works, and look at single pages.", "anchors": ["booklitcmd/main.go: Main", "booklitcmd/command.go: Execute, Build, reexec", "render/writer.go: WriteSection, WriteSearchIndex"]}
{"id": "C82", "title": "A file rendered as a section of a book is rendered as the last section of it", "statement": "Rendering a file with --section-path leaves the sections of the book as they are. The sections of the file are numbered as if the file were included at the end of the book; references in it find the tags of the book and its own, and are reported if there is no such tag or more than one. What is printed is the page the file would have there (or the error it would have), provided the titles of the tags of the book do not themselves refer to sections. With --out, each page of the file is written to the file it would have there, and no other files change, except the search index if it is asked for.", "quantifier": "all books, all files rendered as sections of them, all plugins that make contents not referring to sections, all sites, flags and disks", "why_tests_cant": "Tests render one small file for one book; that nothing in the file or the book makes it differ from the included section cannot be tested.", "anchors": ["booklitcmd/command.go: Build", "load/processor.go: LoadFileIn", "section.go: Number, FindTag, PageOwner, PageDepth", "render/writer.go: WriteSection", "render/html.go: RenderSection"]}
{"id": "C83", "title": "While templates are edited, the development server shows what a new server would show", "statement": "After any requests and any changes of source files and of the user's templates, with later modification times and without removals, the development server answers each request as a server started at that moment does, as long as all templates parse: with the same page, the same error, or by leaving the request to the file server. If a build with the same flags of the files and templates as they are now ends with status 0, the answer to the request for a page is the very text of the file the build writes. A template that does not parse is reported, until it is mended.", "quantifier": "all books, all templates in the template language modelled, all sequences of requests and changes, all paths", "why_tests_cant": "The templates in use depend on all earlier requests, edits and modification times, and so does what the parse cache and the memory of sections hold; tests make one request.", "anchors": ["booklitcmd/server.go: ServeHTTP, loadRequestedSection", "render/html.go: LoadTemplates, resetTmpl", "load/processor.go: LoadFile", "booklitcmd/command.go: Serve, Build"]}
{"id": "C84", "title": "Templates edited while they are loaded", "statement": "While the development server loads the templates for a request, template files may be written and removed at any moment, also between the listing of the directory, the looks at modification times and the reading. When the load succeeds, every template file that was there at its begin is in use in the version of that moment or a newer one, and not in an older one; a later edit is noticed by the next request. A template in use is always one version of a file or the built-in one. A load fails only if a file was removed during it or does not parse.", "quantifier": "all interleavings of edits, removals and the steps of any number of loads", "why_tests_cant": "The time between a look at a modification time and the reading of the file is too short for tests to hit; all interleavings are needed.", "anchors": ["render/html.go: LoadTemplates", "render/text.go: LoadTemplates", "booklitcmd/server.go: ServeHTTP (buildLock)"]}
{"id": "C85", "title": "A manuscript becomes the pages it describes", "statement": "A book is written down as a manuscript: sections within sections with titles (with styles, code, images and auxiliary text) and any number of names, paragraphs, code, styles, links, images, auxiliary text, targets, references by name (to sections and targets) with a text of their own or without, lists, tables, definitions, asides, insets, blocks of code, tables of contents, and sections left out of tables of contents, all text escaped, with line ends of either kind. If every reference is to a name that is given once and the pages have different names without slashes, a build with the built-in templates succeeds. For each section that starts a page there is a file with its name; a browser reads it as a page that shows exactly what the manuscript says, in its order, with the right headers, numbers, titles and links, and with nothing but blanks added. Auxiliary text of a title is shown in the header of its section and in the title of its page; it is left out in references, in tables of contents and in the name that a section without a name gets from its title. No other file is touched, except the search index if asked for.", "quantifier": "all manuscripts, of any size and depth; both line ends; all output directories, earlier contents of the disk, and plugins", "why_tests_cant": "The way from source text to files goes through parsing, evaluation, numbering, collection, resolution, rendering and writing; tests compare a few books with stored pages.", "anchors": ["ast/booklit.peg.go", "stages/evaluate.go: Evaluate", "baselit/plugin.go", "load/processor.go: LoadFile", "stages/collect.go", "render/html.go", "render/html/*.tmpl", "render/writer.go: WriteSection", "booklitcmd/command.go: Build"]}
{"id": "C86", "title": "The search index of a manuscript says what its sections say", "statement": "If a build of a manuscript (C85) is asked to save the search index, the index can be read as JSON, and it has an entry for a name if and only if it is one of the names of a section or the name of a target. The entry gives the URL at which the section or target is found, its title (with auxiliary text, without styles), the depth and the name of the section, and the text of the section without styles and links: paragraphs in one line, lines of code, lists with bullets or with numbers from 1 on, rows of tables, definitions, where images are, and the texts of references or the titles of what they refer to. In the plain text of lists in general, further lines of an item are indented unless they are empty; tables are rows of cells between bars; definitions are lines with a colon.", "quantifier": "all manuscripts whose references are to names that are given once; all contents whose parts have a text", "why_tests_cant": "The text of each section depends on the titles of the sections and targets that it refers to anywhere in the book; tests compare the index of one book.", "anchors": ["render/writer.go: WriteSearchIndex, loadTags", "list.go: String", "table.go: String", "definitions.go: String", "paragraph.go: String", "preformatted.go: String", "reference.go: String"]}
{"id": "C87", "title": "Templates of one's own cannot be broken into", "statement": "If the templates of a user do not ask for raw markup (rawHTML, rawURL), nothing that a book says can become markup or a program on a page, wherever the templates put it. Each page consists of pieces of the texts of templates and of what is put between them: text between tags, in titles and text areas; letters and digits in names of tags; values between the quotes of attributes; addresses only if they are safe, which includes attributes that only look like addresses by their names. Nothing is put into scripts, style sheets, comments and attributes that hold programs or styles. After the page a browser is outside of all tags. Text put between tags is shown as it is; text put into an attribute is what the attribute holds; a safe address leads where it says; text in the query of an address stands for itself.", "quantifier": "all sets of templates in the template language modelled, all books and plugins not using a style whose template asks for raw markup, all texts", "why_tests_cant": "What a placeholder means depends on the text of all templates around it, and an attack needs only one combination of place and text; tests try a few.", "anchors": ["render/html.go: LoadTemplates, render, RenderSection", "render/html/*.tmpl", "baselit/plugin.go"]}
{"id": "C88", "title": "Where something is written in a file does not matter for the site", "statement": "If some files of a book are written in another way, such that they have the same syntax trees except for line and column numbers, the command ends alike: with the same exit status and standard output, and with the same files on the disk, byte for byte, with any flags, templates and search index, and also if something fails half way. If it fails, the errors are the same except for places. In particular this holds for files with CRLF in place of LF, in some of the files or in all, and for any two layouts (comments, blank lines, indentation) of the same document.", "quantifier": "all books, flags, templates, disks, all sets of files parsing alike, and all plugins that do not look at places", "why_tests_cant": "It compares two whole builds: places are stored in sections, tags, references and errors throughout, and any of them could leak into a page; tests compare the syntax trees of a few files at most.", "anchors": ["load/processor.go: EvaluateFile, LoadFile", "stages/evaluate.go: Evaluate", "stages/collect.go: Collect", "booklitcmd/command.go: Build", "render/writer.go: WriteSection, WriteSearchIndex", "ast/booklit.peg"]}
{"id": "C89", "title": "Whether a section has a file of its own does not matter for the site", "statement": "If a book is built successfully, and a section that is written down in its parent is then moved to a new file, in the same directory or (with the names of the files that it includes adapted) in another one, with \\include-section in its place, the command ends alike: with the same status and output, and the same files on the disk, byte for byte (pages, anchors, navigation, numbers, search index). The other way round, the file of a section can be made a part of its parent and deleted. The same holds for any number of sections, nested in any way, for HTML and text, and whatever the layout of the files. This is so without plugins and with the templates of the program. With plugins it is false: sections can use the plugins of their parent, files cannot. The development server answers requests for both books alike too.", "quantifier": "all books without plugins, all ways to split them into files of the same directories, all flags that are not about templates, all disks", "why_tests_cant": "It compares two whole builds of arbitrarily nested books: the evaluator treats the two cases in different functions (plugins, paths, parse cache, error wrapping, locations), and the number of ways to split a book is unbounded.", "anchors": ["baselit/plugin.go: Section, IncludeSection", "load/processor.go: EvaluateFile, EvaluateNode, evaluateSection", "stages/evaluate.go: Evaluate", "section.go: Section.FilePath", "stages/collect.go: Collect", "booklitcmd/command.go: Build"]}
{"id": "C90", "title": "A manuscript distributed over files becomes the site of the whole manuscript", "statement": "A book (titles, text, styles, code, lists, boxes, references, tables of contents, sections within sections) is written down in any number of files: any section at any depth may be inside its parent, or in a file of its own that the parent includes, in the same directory or in another one, and the files may have different line ends. If every reference is to a name that is given once and the pages have different names, the command builds it: each page has its file, a browser reads it as a page, and on it is what the book says, with the headers, numbers, titles and links that follow from the order of the sections and not from the distribution over files; the search index has an entry for each section and target; nothing else is written.", "quantifier": "all such books, all ways to distribute them over files, all line ends, all disks", "why_tests_cant": "It is about unboundedly many texts and file layouts, and about the composition of all stages from parsing several files to writing pages.", "anchors": ["baselit/plugin.go: Section, IncludeSection, Title, Reference", "load/processor.go: LoadFile, EvaluateFile", "stages/evaluate.go: Evaluate", "stages/resolve.go: Resolve", "render/writer.go: Writer.WriteSection", "booklitcmd/command.go: Build"]}
{"id": "C91", "title": "Files that are not UTF-8 are refused, with the error no later than the first bad byte", "statement": "A file that is the UTF-8 encoding of a text is parsed as that text. A file that is not the encoding of any text is never parsed: parsing it always ends, with an error located at a point of its longest decodable beginning or at its end, so at the latest where the first bad byte stands. If a single stray byte is all that is wrong with the file, the error is exactly at the line, column and byte offset of that byte.", "quantifier": "all sequences of bytes; all texts; all stray bytes and their places", "why_tests_cant": "Unit tests parse a few literal strings, which are valid UTF-8. The property ranges over all byte sequences, and an undecodable byte can stand anywhere in the grammar, also where the parser has to back up over it.", "anchors": ["ast/booklit.peg.go: parser.read, parser.parse, errList.err", "ast/errors.go: UnpackError", "load/processor.go: LoadFile"]}
{"id": "C92", "title": "What a syntax error says is expected is true", "statement": "Whenever a document does not parse, the error has a message that lists at least one item, sorted and without repetition, EOF last. Each item is true at the place the error is reported for: what it names (a text in quotes, any character, a class of characters) does not follow there; what it names with an exclamation mark does follow, where it must not; EOF is listed only if the text goes on.", "quantifier": "all documents that do not parse; all items of their messages", "why_tests_cant": "The message is put together from failures at many places with backtracking, lookahead and resets; tests compare a few messages, or none.", "anchors": ["ast/booklit.peg.go: parser.failAt, parser.parse, listJoin, parser.parseNotExpr", "errors.go: ParseError.Error"]}
{"id": "C93", "title": "The development server shows a manuscript as it is now", "statement": "A book is written down as a manuscript (C85), in one file or in several (C90). Whatever the development server has been asked before, and whatever was in the files then (provided that changed files got later modification times), it answers the request for a name of a section, or for the name of a target in it, with a page that shows what the manuscript says now: this section, with the right header, numbers, links and titles, and the sections below it that have no pages of their own. The URL of each link on a page is the name of a page, with a place on it or not, and the server answers the request for this page with the page that the section or target is on. Requests for names that the manuscript does not give are left to the file server. This is so too if several requests are served at the same time.", "quantifier": "all manuscripts, all ways to distribute them over files, all histories of requests and changes; names that are given once", "why_tests_cant": "It is about all texts and about all histories of a long-running process with a cache; tests ask a server a few times.", "anchors": ["booklitcmd/server.go: ServeHTTP, loadRequestedSection", "load/processor.go: LoadFile", "section.go: FindTag", "render/html.go: RenderSection", "baselit/plugin.go"]}
{"id": "C94", "title": "A manuscript becomes plain text to the letter, or the build fails", "statement": "If a manuscript (C85) consists of text, auxiliary text, paragraphs, insets and tables of contents, a build with the built-in plain text templates succeeds, and in the file of each page is, to the letter: the title, then each section with its number (unless it is the whole book) and title, its paragraphs each in one line, its insets indented, its table of contents with numbers and titles without what is auxiliary, and the sections below it unless they have pages of their own. No other file is touched, except the search index if asked for. If there is anything else on a page (code, a style, a link, a reference, a target, an image, a list, a table, a definition, an aside), the build fails.", "quantifier": "all manuscripts, of any size and depth; both line ends; all file name extensions, output directories and earlier contents of the disk", "why_tests_cant": "Texts are compared to the letter for all manuscripts, and all manuscripts are either built or not; tests render a few sections.", "anchors": ["render/text.go: RenderSection, subRender, setTmpl", "render/text/*.tmpl", "booklitcmd/command.go: Build", "render/writer.go: WriteSection"]}
{"id": "C95", "title": "A manuscript is built exactly when its references are in order, and otherwise the first that is not is reported", "statement": "A build of a manuscript (C85) as HTML succeeds if every name that is referred to in it is the name of exactly one section or target, or if broken references are allowed. Otherwise it fails, and the error is about the first such name, in the order in which pages are written and on each page in reading order: either an unknown tag, with the names that there are, or an ambiguous reference, with one place for each thing that has the name.", "quantifier": "all manuscripts, of any size and depth; both line ends; all outputs and earlier contents of the disk", "why_tests_cant": "Both directions hold for all manuscripts; which of several broken references is reported depends on the order of pages, sections, blocks, rows and cells. Tests have one broken reference.", "anchors": ["reference.go: Tag, resolve", "section.go: FindTag, SimilarTags", "render/html.go: RenderSection, setTmpl", "render/writer.go: WriteSection", "booklitcmd/command.go: Build", "errors.go: UnknownTagError, AmbiguousReferenceError"]}
{"id": "C96", "title": "The pages of a manuscript are determined to the letter, and changing the text of a section changes only its page", "statement": "Building a manuscript (C85) as HTML writes, for each section that starts a page, a file with exactly the bytes that a function of the manuscript says: the templates, escaped text, numbers, header levels, URLs and titles of what is referred to, and for references to what does not exist or exists more than once, if they are allowed, a note that leads to the page they are on. If the text of one section is replaced by another with the same targets and the book is built again into the same directory, then no file changes except that of the page the section is on, and the search index; in the index only entries for names of that section and of its targets change.", "quantifier": "all manuscripts, of any size and depth; both line ends; all outputs and earlier contents of the disk; broken references allowed or not; all sections and all new texts", "why_tests_cant": "Whether some file depends on something it should not depend on (order of evaluation, numbers of sections elsewhere, earlier contents) can not be seen from finitely many sites.", "anchors": ["render/html.go: RenderSection, VisitReference, VisitSection, VisitTableOfContents, subRender", "render/html/*.tmpl", "render/writer.go: WriteSection", "section.go: Number, PageDepth, FindTag", "reference.go: Tag, Display", "booklitcmd/command.go: Build"]}
{"id": "C97", "title": "What a page is to the letter depends neither on the files of a manuscript nor on the history of the server, and an edit changes one page only", "statement": "A manuscript may be distributed over several files in any way: each page that a build writes has exactly the bytes that the whole manuscript determines. The development server, whatever it was asked before, whatever was in the files then and whatever else it does at the same time, answers to the request for a section or a target in it with exactly the bytes that the manuscript determines, which for sections that start a page are those that a build writes. If the text of one section is replaced by another with the same targets, even if sections are moved to other files, a new build changes the file of one page only, and the server shows the same as before for all sections on other pages. The same holds of builds as plain text.", "quantifier": "all manuscripts and distributions over files; all histories and interleavings of the server; all sections, names and new texts", "why_tests_cant": "There are infinitely many ways to distribute a book over files and infinitely many histories of a server; a byte that depends on them shows only in some.", "anchors": ["booklitcmd/server.go: ServeHTTP", "booklitcmd/command.go: Build", "load/processor.go: LoadFile, EvaluateFile", "baselit/plugin.go: IncludeSection", "render/html.go: RenderSection", "render/text.go: RenderSection", "render/writer.go: WriteSection"]}
{"id": "C98", "title": "The pages of Booklit's own documentation site are what its templates and plugin promise", "statement": "With the templates of the documentation, each page has in its head the title of its section, the name of the site leads to the first page, and the navigation has one entry for each section below the top, in their order, that leads to the section and shows its title without what is auxiliary. Exactly the entry of the section that contains the page is marked as current; on the first page, none is. Each section is shown with a heading of the level of its depth on the page, with its number leading to its address, and with the sections in it unless these are split off; of the first page only the text is shown. What is written in documents is only text on the pages: it cannot close an element, start an attribute or run a script, also where methods of the documentation's plugin are used. A fruit described with this plugin can be referred to and found under each of the tags given, or under its name if none is given, and an empty name is refused. Columns are shown with their title first and one column for each of the other arguments, in order; headers of columns and highlighted text are shown inside an element of their class; links to templates lead to the source of the template; frames have the address given (with the markup characters in it escaped twice, which is a defect); and only sections that use the plugin, under its name, find its methods, and they find each under its name whichever other plugins they use. This plugin sees nothing but the book it is called in and does not depend on where in the source files things are written, so that all that holds of the server and of the layout of source files holds with it.", "quantifier": "all books, sections, pages and documents, with the custom templates of the documentation; all calls of the plugin's methods except those that call the highlighter and Godoc", "why_tests_cant": "A marker on the wrong entry or an unescaped title shows only with some trees of sections and some titles; the site is one book out of infinitely many.", "anchors": ["docs/html/page.tmpl", "docs/html/section.tmpl", "docs/html/*.tmpl", "docs/go/plugin.go: OutputFrame, SyntaxHl, ColumnHeader, Columns, TemplateLink, DescribeFruit", "section.go: Top, Contains", "render/html.go: LoadTemplates, RenderSection"]}
{"id": "C99", "title": "A new section changes only the pages that show it", "statement": "If sections are written after the last section below some section of a book, and the book is built again into the same directory, then the files that change are: the pages of the new sections, the pages that show what is below that section (it is on the page itself and its sections are not split off, or the page has a table of contents, of that section or of one that contains it, that goes down to it and is not cut off by omitting children), and the search index. All other files are the same to the letter. Conversely, if the last sections are taken away again only the pages that showed them and the search index change; the files of the removed sections stay behind as they were. In the search index there are new entries for the new names, and those for other names stay as they were.", "quantifier": "all manuscripts (C85), all sections in them, all lists of new sections that nothing referred to before, both kinds of line ends, all previous contents of the directory, with and without the search index and broken references", "why_tests_cant": "Whether an unrelated page depends on the number of sections, on their order, or on how many tags there are is a question about all books and all pages; a test compares a few pages of one.", "anchors": ["section.go: PageDepth, Number, Anchor, FindTag", "render/writer.go: WriteSection", "render/html/toc.tmpl", "render/html/section.tmpl", "baselit/plugin.go: Section, TableOfContents, SplitSections, OmitChildrenFromTableOfContents"]}
{"id": "C100", "title": "Templates are read as they are written", "statement": "A template that LoadTemplates accepts means what it says, however long it is and however deeply its actions are nested: its texts are copied, a pipeline is the call of its functions and methods with the arguments written and the value of the part before as last one, a chain of fields belongs to what stands before it, and if, else if, else, with, range and template begin and end where they are written; and and or evaluate their arguments up to the one that decides. Spaces in actions, comments, and spaces that actions take away do not matter: two sets of templates that differ only in them give the same pages.", "quantifier": "all templates in the part of the template language modelled, all lengths and depths, all layouts with spaces, trim markers and comments, both engines, all books", "why_tests_cant": "Nesting of actions, parentheses and pipelines is unbounded, and each combination is parsed differently; tests parse a few templates.", "anchors": ["render/html.go: LoadTemplates, HTMLFuncs", "render/text.go: LoadTemplates, TextFuncs"]}
{"id": "C101", "title": "Another title for a section changes only the pages that show the title", "statement": "If a section of a book gets another title but keeps its names (they are given, or the new title makes the same one), and the book is built again into the same directory, then the files that change are: the page the section is on, the pages that have a table of contents with an entry for it, the pages that refer to it without a text of their own, and the search index. If the two titles differ only in auxiliary text, only the page of the section and the search index change. All other files are the same to the letter. In the search index, only entries for names of the section change, and of sections and targets in texts that refer to it by its title.", "quantifier": "all manuscripts (C85), all sections in them, all titles old and new that make the same names, both kinds of line ends, all previous contents of the directory, with and without the search index and broken references", "why_tests_cant": "Titles are repeated wherever there is a table of contents or a reference, through any number of levels and cut off by omitting children; whether one page forgets or another page copies it is a question about all books.", "anchors": ["section.go: SetTitle, PrimaryTag, FindTag", "reference.go: Display", "toc.go", "render/html/toc.tmpl", "render/html/section.tmpl", "aux_.go: StripAux", "render/writer.go: WriteSection, WriteSearchIndex"]}
{"id": "C102", "title": "Misspelt references are told what could have been meant", "statement": "If a page cannot be rendered because a reference names a tag that is not in the book, the tags suggested on the error page are exactly those tags of the book that can be made from the name by fewer insertions, deletions and replacements of single characters than half the length of the longer of the two names. In particular a tag with one letter too much, missing or wrong is suggested as soon as one of the names has three letters, and never if both have two or less. It does not matter which of the two names is the written one.", "quantifier": "all books, pages, tags and misspelt names, of any length and in any script", "why_tests_cant": "The nearest of exponentially many ways to correct a name decides; tests try a few pairs of words.", "anchors": ["section.go: SimilarTags, filterTags", "reference.go: Tag", "errors.go: UnknownTagError.PrettyHTML", "errhtml/unknown-tag.tmpl"]}
{"id": "C103", "title": "Booklit code in the documentation links to what it calls", "statement": "Code shown with lit-syntax is what the highlighter makes of it, in which every call (a backslash and the longest name after it) of something that is tagged in the book is a link to the place where the book documents it; calls of other things, backslashes without a name and everything between the calls are unchanged. define gives what is written about a function together with a thumbnail: the signature, in which calls are references and arguments in braces are set in italics, and before it a target, so that the function is found under its name, in the section and at the place of the call, and no other new tag is; on the site, the thumbnail begins with the anchor of that name and is followed by what is written about the function. godoc links to the name behind the first dot in the documentation of the package before it, whatever stars are in front; without a dot the build crashes.", "quantifier": "all codes, names, arguments, highlighters, books and sections in them in which no called name is tagged twice", "why_tests_cant": "Calls and arguments may stand anywhere in code of any length, next to each other or to markup of the highlighter; tests show a few lines of code in one book.", "anchors": ["docs/go/plugin.go: LitSyntax, Define, Godoc, linkTransformer, argTransformer, renderInvoke", "chroma/plugin.go: SyntaxTransform, TransformAll", "reference.go: Tag", "render/html/reference.tmpl"]}
{"id": "C104", "title": "Highlighted Booklit code is coloured as Booklit reads it", "statement": "When code in Booklit syntax is highlighted, every character of it gets a colour: text and escaped characters that of text, the names of calls with their backslash that of keywords, braces that of punctuation, verbatim text with its delimiters that of strings, and comments with everything nested in them that of comments. What is coloured as a call is exactly what the parser reads as calls, in the same order; a backslash that neither begins a call nor escapes a character is marked as an error, and nothing that the parser accepts is.", "quantifier": "all Booklit documents, with calls, arguments, comments and verbatim text of any length and nesting, and either line ending", "why_tests_cant": "Two descriptions of the same syntax, a grammar and a table of regular expressions, have to agree on all texts; an example shows only that they agree on it.", "anchors": ["chroma/booklit_lexer.go: Booklit", "ast/booklit.peg: Invoke, String, Comment, VerbatimArg", "chroma/plugin.go: SyntaxTransform"]}
{"id": "C105", "title": "A template can be rewritten by the laws of its language", "statement": "Two sets of templates of which one is the other rewritten make the same pages, with the same errors, of every book. With the text engine the laws are: {{if not X}}A{{else}}B{{end}} is {{if X}}B{{else}}A{{end}}; if with and, or is if within if; what comes after an if, and text before it, can be put into its branches; texts can be joined; {{with X}} with . is {{if X}} with X; a variable that is used at once can be replaced by its value; and {{not X}} and {{eq X Y}} print true or false as {{if}} chooses. With the HTML engine those that do not move text hold wherever a template can stand, also if values are put into attributes, and templates that cannot be used stay so. A truth value, as .Ordered, is printed as the word for it. A range with else that succeeds is an if with a range.", "quantifier": "all sets of templates, all positions and nestings of the rewriting, any number of rewritings, all books and sections", "why_tests_cant": "Tests execute a few templates; the laws are about all templates and all data.", "anchors": ["render/html.go:HTMLEngine.LoadTemplates", "render/html.go:HTMLEngine.RenderSection", "render/text.go:TextEngine.LoadTemplates", "render/text.go:TextEngine.RenderSection", "render/html.go:subRender", "render/text.go:subRender"]}
