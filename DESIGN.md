# Formal model of vito/booklit: design

## Trusted base

* Lean 4.33.0's kernel. Theorems depend on no axioms other than `propext`, `Classical.choice`, `Quot.sound`
  (checked with `#print axioms`). No `sorry`, no `native_decide`, no `bv_decide`, no own axioms.
* The hand translation from Go to Lean. Each model definition cites the Go file and lines it models and
  states its simplifications. Nothing of /repo was compiled or run.
* What was taken from the documentation or source of dependencies, as far as it is modelled: pigeon's parser
  runtime (the generated copy in `/repo/ast/booklit.peg.go`), Go's `reflect.Value.Call` rules, `sync.Once`,
  `path/filepath.Clean/Join/Dir`, `bufio.Reader.ReadLine`, the escapers that `html/template` inserts, `strings` and
  `unicode` helpers used by `Sanitize`-like code.
* The specification files (`Spec/*.lean`): small definitions that theorem statements are phrased in. They do not
  use the model's helpers, except for the plain data types (nodes, contents, sections, locations).

## How the files fit together

`Model/` is the code, `Spec/` the vocabulary of the statements, `Lemmas/` the proofs' machinery, `Props/` the
property theorems (named `Cnn_...`), each beside an `example` that meets its hypotheses.

## Modelled / not modelled

| part of /repo | model | what is left out |
|---|---|---|
| `ast/booklit.peg`, `ast/booklit.peg.go` | `Model/Peg.lean` (pigeon runtime: positions, labels, global store, furthest failure), `Model/Grammar.lean` (grammar as data, actions), `Model/Bytes.lean` (decoding, invalid bytes), `Model/Expect.lean` (messages of errors) | evaluation starts from texts, files that are not UTF-8 are refused (C91); memoisation (off by default) |
| `ast/node.go` | `Model/Ast.lean` | - |
| `append.go`, content types, `aux_.go`, `sequence.go`, `paragraph.go` ... | `Model/Content.lean` | strings are lists of scalars; Go map iteration order is a list order the theorems quantify over |
| `String()` methods | `Model/Text.lean` | - |
| `section.go`, `reference.go` | `Model/Section.lean`, `Model/Pages.lean` (reference resolution), `Model/Memo.lean` (the tag remembered by a reference) | pointers are indices in a heap of section records; `SimilarTags` is `Model/Similar.lean` (the library for it is not in /repo and modelled after its documentation; in C75 to C77 any measure is allowed, `Wording.similar`) |
| `plugin.go` | `Model/Plugins.lean` | - |
| `stages/evaluate.go`, `baselit/plugin.go`, `load/processor.go` (evaluation) | `Model/Eval.lean` (evaluation, base plugin, loading, parse cache), `Model/Path.lean` | reflection is a table of method signatures and bodies; foreign plugins are pure functions of the section heap and their arguments; the file system is a function from paths to modification time and text |
| `load/processor.go` (cache under concurrency) | `Model/Cache.lean`: transition system, one step per lock/stat/parse/store; `Model/Amid.lean`: whole loads and answers amid such steps | - |
| `stages/collect.go` | `Model/Collect.lean` | - |
| `lazy.go` | `Model/Lazy.lean`: transition system of `sync.Once` | - |
| `render/common.go`, `render/writer.go` | `Model/Pages.lean`, `Model/Output.lean` | file contents go to `Model/Html.lean` |
| `render/html.go`, `render/html/*.tmpl` | `Model/Html.lean` (pages as text), `Model/Escape.lean` (html/template escapers) | functions that users' Go code adds to templates |
| `render/text.go`, `render/text/*.tmpl` | `Model/TextEngine.lean` (pages as text) | |
| `render/html/*.tmpl`, `render/text/*.tmpl` as texts; `visitor` methods of both engines | `Model/Tmpl.lean` (text/template parser, html/template contexts), `Model/Engine.lean` (execution, dispatch by content), `Model/Shipped.lean` (the texts, unpacked from `bindata.go` by a script and compared with the files; `reference.tmpl` differs, see `C79_reference_file`) | template features that no shipped template uses, in part: `with`, declared variables, `eq`, `walkContext` and comments are there; `define`, `block`, `break`, `continue`, assignments, the predefined functions other than `and`, `or`, `not`, `eq` (`len`, `index`, `printf` and so on), and contexts in scripts and style sheets are not (such templates do not compile in the model) |
| `render/html.go`, `render/text.go`: `LoadTemplates`, choice of templates | `Model/Templates.lean`, `Model/Reload.lean` (step by step) | template language |
| `booklitcmd/server.go` | `Model/Server.lean` (decisions), `Model/Serve.lean` (concurrent requests as a transition system), `Model/Answer.lean` (whole requests), `Model/Dev.lean` (whole requests with the user's templates) | net/http |
| `errors.go`, `errhtml/*.tmpl`, error reports of `booklitcmd/main.go` | `Model/Annotate.lean` (the marked source line), `Model/Text.lean` (errors as values), `Model/ErrorPage.lean` (error pages and reports, byte by byte, with colours) | the style sheet (a parameter without `<` and `&`, since html/template rewrites CSS); messages of Go, of the parser and of the operating system (parameters); `textio.PrefixWriter`, which is not in /repo, is modelled after its documentation |
| `chroma/plugin.go` | `Model/Chroma.lean` | other lexers, highlighter and regex engine (parameters) |
| `chroma/booklit_lexer.go` | `Model/Lexer.lean` (the rules with their patterns as functions) | the library's loop over the rules is not in /repo and modelled after its documentation; its uniform line ends |
| `booklitcmd/command.go`: Build, with `render/writer.go` | `Model/Build.lean` (files on a disk; what the operating system decides, including failures and what is left of cut-off writes, is a parameter), `Model/Command.lean` (flags to exit status, templates, plugins by reexec, `booklitcmd/main.go`) | the parsing of flags, logging, profiling; the Go toolchain (a parameter); links, case folding and permissions of file systems |
| `docs/html/*.tmpl`, `docs/go/plugin.go` | `Model/DocsSite.lean` (the texts, copied by a script), `Model/DocsPlugin.lean`, `Model/DocsLit.lean` (`LitSyntax`, `Define`, `Godoc` and the two regular expressions) | `sidebar.tmpl` (uses `define`, and no template uses it); the highlighter (a parameter) |
| `encoding/json` as used for the search index | `Model/Json.lean` (both variants of control character escapes, sorted keys) | everything else it can encode |

Go runtime panics (nil dereference, failed type assertion, slice bounds) are explicit outcomes; error
returns are values; unbounded recursion is a fuel-indexed function whose theorems speak about every fuel or about all
large enough fuels (`Ends`).

## Per property

P = proved as stated; N = the code violates the statement: the negation is proved with a concrete witness
(`Cnn_false...`) and the largest true part found is proved as `_partial`.

Parser (`Props/Parser`, `Surface`, `Crlf`, `Prose`):
* C01 P: a well-formed PEG (no left recursion, no nullable loops) terminates, by induction on input length and rule
  rank (`PegTerm`); the booklit grammar is checked by `decide`.
* C02, C03, C04, C11 P: forward big-step lemmas per rule (`PegFwd`), surface documents with `print`/`tree`
  (`Spec/Surface`), induction over the text; C11 by writing canonical trees as surface documents.
* C05 N: false for two comments in a row and for a comment at the start of a line.
* C06 P: simulation between runs of the interpreter on `s` and on its CRLF version (`CrlfSim`).
* C07, C08, C09 P: invariants of interpreter runs (positions, shapes, conversions).
* C10 N: column 0 at newlines, exactly then (`C10_exact`). C12 N: nested blocks share one global; partial: sequential blocks.

Contents and titles (`Props/Content`, `Titles`):
* C13 N (early `return`), C14 P, C15 N (nil content), C16 N (auxiliary content outside sequences): structural induction. What happens in all
  cases is in `Props/ContentExact` (spec in `Spec/StripExact`).
* C17 P: characters of the result, idempotence, words.

Sections (`Props/Section`, `Load`, `Outline`, `Collect`, `Output`):
* C18-C22, C24, C25, C55 P: `Book h t` (a heap holds a tree), induction over positions in trees. C22 also for reference objects that
  remember their tag (`Props/Memo`): induction over the calls.
* C23 N (split below single-page; `C23_document_partial` for loaded documents without it), C26 N (equal titles; exactly when is `C26_iff`, for tags with slashes `C26_same_place`), C27 N (order of calls; exactly when is `C27_exact`, for whole documents `C27_document`, for every section `C27_sections`).
* C28, C29 P: invariants of evaluation with two-run and frame relations (`EvalInv`, `EvalRel`, `Frame`).
* C30, C34, C61, C62 P: the calls in the source replayed by a small relational semantics (`Spec/Outline`).
* C42 N (nested targets), C43, C59, C60 P: collection.
* C54 N (dots in tags; `C54_below_partial` for all tags that do not lead out, by `wander`, a walk along the parts of a path), C49 P.

Calls and errors (`Props/Calls`, `Safe`, `Errors`, `Origin`):
* C31, C32, C37, C39, C40, C41, C58 P; C33 N, C38 N (locations overwritten by nested calls; `CallsAt`: by which one, exactly, and errors of methods with any arguments).
* C35 N, C36 N: crashes and divergence by witness; `World.tame` documents never crash, acyclic ones always end;
  documents that load have no endless chain of includes (`C36_no_cycle`, by induction over the outline relation);
  without one, loading ends (`C36_exact_partial`, by induction over the accessible part of the include relation).
* C50 N: `Spec/Lines`. C63, C64 P: origin logic over all of evaluation (`OriginL`).

Concurrency and serving (`Props/Cache`, `Lazy`, `Serve`, `Server`, `Templates`):
* C44, C45, C48 P: transition systems with inductive invariants, all schedules.
* C46 N, C47 N (exactly which section is shown: `C47_exact`), C53 N, C56, C57 P.

Pages (`Props/Html`, `Chroma`):
* C51 P. C52 N (NUL only): refinement of rendered text by a tree of elements, read back by an independent strict HTML
  reader (`Spec/Dom`); `Spec/Harmless` says what cannot occur.
* C65 N (colons, partials): anchors on pages (`IdsL`), links (`LinksL`), C24 and C42 put together.
* C66: `Looks` (Spec/Looks.lean) is a relation between contents and what is read from a page, without templates. By induction
  on contents and on fuel, what the renderer makes stands in this relation to the section; numbers, levels, tags and addresses
  are those of the section tree (lemmas of C18, C21, C23, C24).
* C67 (`Props/Renders`): more fuel never changes a result (`FuelL`); contents that satisfy `Spec/Sane` are rendered with enough
  fuel, by induction on contents, then on the section tree. References without text cannot occur in texts shown elsewhere, so
  there is no way around in circles.

Builds (`Props/Json`, `Props/Build`):
* C68: a build writes the pages one after the other (`write_all`), for any fuel and any failure only page files
  change (`write_other`). C67 and C69 give the rest for documents in order.
* C69: a JSON reader (`Spec/Json`), read after write by induction on entries; keys are sorted, so order does not matter. Texts of
  documents can be had by induction on contents (`IndexL`).
* C70 N (inherits from C26, C54, C65): C65 and C68 put together, in terms of the files on the disk only.
* C71 N: a failing write splits the list of pages in those before, which are new, and those after, which are untouched.
* C72 N: C21 and C68; `C72_exact` covers all cases (`findTag_top`: from the top tags are found in document order; `written_iff`: what is written are the pages among a section and all below it).

Plain text (`Props/TextEngine`):
* C73 P: as C66 and C67, with the relation `TextLooks`; the text engine has templates for few kinds of content, so what can be
  rendered is characterised by `Typable`.

Server and build (`Props/Answers`):
* C74: a simulation. A load that starts with earlier sections in memory and a filled cache does the same as one that starts with nothing, with
  all section pointers shifted (`Spec/Moved`, `Lemmas/MovedEval`), and rendering does not see the shift (`Lemmas/MovedRender`). The
  states of a server with edits are `Spec/Served`; cache entries always are parses of past files (`Lemmas/MovedLoad`).

Requests at the same time (`Props/SameTime`):
* C78 P: a load amid other activities (`Model/Amid`) finds, at each read, a cache of some reachable state of the transition system of C44,
  and files that may have changed. What it evaluates is a parse of a version that was current since it began (`Lemmas/AmidL`); two loads
  that evaluate the same trees do the same (the simulation of C74). With C48, for rendering.

Errors (`Props/ErrorPage`):
* C75 P: a logic for the errors of rendering (`ErrOnly`, `Lemmas/RefErrL`): every error comes from a template or from a reference
  that is shown; with C63, C64 and C21.
* C76 N (line ends, nested calls): the HTML reader of C52 run over the error templates, with a record of what the page says
  (`Said`, `Lemmas/ReportL`), by induction on errors. Pages are bytes, since marked parts are cut by bytes.
* C77 N (inherits from C50): every report ends with a line feed, so the indenting writer distributes over its parts (`Lemmas/PrintL`).

Templates (`Props/Shipped`):
* C79: the shipped templates are parsed by evaluation in the kernel (`ShippedL`), each is given an equation for what it writes
  (`ShippedHtml`, `ShippedText`), and then, by induction on fuel in both directions, the interpreter and the functions of
  `Model/Html` and `Model/TextEngine` refine each other (`ShippedRefine`, `ShippedTextRefine`).
* C80: two executions side by side (`CustomL`): all values that templates get hold of stay free of the styles in question (`Clean`), so the
  templates for them are never asked for. For documents by C64.
* C81: case analysis of a build, with the lists of pages written (`written_ends`) for completeness; two engines that make the same pages make the
  same builds (`CommandL`: `build_same`), to which C79 and C80 are applied.
* C82 (`Props/Fragment`): the loaded file is a tree of its own whose top has the book as parent (`Apart`); all that is computed by going up
  from its sections is as in the heap in which it is the last child of the book (`joined`), and by induction on fuel so are the pages (`FragmentL`).
* C83 N (broken templates) (`Props/Dev`): the simulation of C74 with the execution of arbitrary templates in place of the page model (`MovedTmpl`:
  templates get hold of sections only through values, and of no numbers of the heap), and the invariant of C46 for the templates in use.
* C84 N (failed loads) (`Props/Reload`): a transition system with the listing, each look at a time and each reading as steps, between which files are
  written and removed; invariants: what was recorded for a file is no newer than what is in use, or the file is going to be seen as changed.
  Without interruption it does the same as the one-step model of C46.
* C85 P (`Props/Manuscript`, spec in `Spec/Manuscript`): manuscripts are an inductive type with a printer `src` and a relation `PageDom` to what a
  browser reads, neither mentioning parser, evaluator or templates. They have all functions of the base plugin that need no Go code, except
  targets with contents of their own, inclusion (C90), and `\single-page`, `\styled`, `\set-partial`, `\use-plugin`; there are no comments. Titles
  are spans without links, references and targets, and not auxiliary text alone (which is not left out anywhere, C16). The proof composes: the printed text parses (`MsSource`), evaluates
  (`MsEval`, `MsParts`) and loads to a tree of that shape (`MsLoad`), places in the manuscript are places in the tree (`MsPlaces`), contents look
  as described (`MsLooks`), pages are written (`MsSite`, C68).
* C86 P (`Props/MsIndex`, spec in `Spec/MsText`): the relation `BlksText` says what the plain text of a block is; the text of the loaded sections
  satisfies it by induction over the contents made from the manuscript; C49 and C69 give the entries and the file. The general statements on
  lists, tables and definitions are about `String()` of any content.
* C87 P (`Props/Placeholders`, spec in `Spec/Markup`): the specification is a tokenizer with positions (text, in a tag, in a value, in a script, …),
  what may be put at each, and what a page composed of templates' texts and of such pieces is. The contexts of the model (after
  html/template) are shown to simulate the tokenizer's positions; execution then composes. Values in scripts and style sheets, for which
  html/template has escapers, are errors of the model when the template is compiled.
* C88 P (`Props/Positions`, spec in `Spec/Erased`): places are erased from trees, contents, sections, errors and results. Each real run is
  simulated by one run on erased trees without a cache (`evalTrees`), which depends on the files only through their erased trees, so that two
  runs on files parsing alike have the same erased run. Templates and writer are shown to commute with erasure. CRLF by C06, layout by C11.
  Templates of the model cannot read the fields that hold places.
* C89 P (`Props/Includes`, spec in `Spec/Includes`): `Splits` relates syntax trees that are equal except that a section is inline on one side and
  included from a file on the other, with the two directories that names of files are relative to; `FilesSplit` relates sets of files. Two evaluations are run side by side on trees
  without places: they make the same sections in the same order, up to paths, plugins and places (`Parted`). The second run gets more fuel,
  since it may open more files. Collecting, resolving, pages, search index and writing then see the same (`Twin`). The step from trees to
  real files is the one of C88. `C89_move_section` and `C89_join_section` are about source text, in the syntax of C11. False with plugins in use and
  for sections of the style `string` (`C89_plugins`, `C89_path_shown`).
* C90 P (`Props/MsFiles`, spec in `Spec/MsFiles`): `Script` is a manuscript (C85) in which each section below may have a file; `Script.whole`
  forgets the files, `Script.src` is the text of a file, `Stored` says that all files are there. Their trees differ from that of the whole
  only by inclusions (`script_files`), so that C89 carries C85 and C86 over.
* C91 P (`Props/Bytes`, model in `Model/Bytes`): `decodeRune` is `utf8.DecodeRune`; `runWith` (`Model/PegLog`) is the interpreter `run` with a log, here of what was left
  at the furthest point read (`runWith_run`: the results are those of `run`, so termination is C01); an error is recorded for the
  first undecodable byte among those read. The invariant `FarOk` bounds position and furthest failure by what was read; a parse that succeeds
  has read everything.
* C92 P (`Props/Expect`, spec in `Spec/Expect`): the interpreter with a log, here of `maxFailExpected`. `WantOk`: what is recorded is about the
  furthest failure and is not met there. `Noted`: outside of lookahead, a failure records something; the grammar looks ahead for single tokens only.
* C93 P (`Props/MsServer`): the page of a loaded section of a manuscript is what C85 says (`Loaded.page`), the tag asked for is found
  (`tagsNamed_count`), and the history does not matter (C74). For several files, `answer_apart` (`Lemmas/IncludesServe`) carries it over as in C89; C78 for requests at the same time.
* C94 P (`Props/MsTyped`, spec in `Spec/MsTyped`): `typedPage` is a partial function from manuscripts to texts; rendering a section of the loaded
  manuscript ends in this text or, where it is undefined, in an error, by induction over the manuscript.
* C95 P (`Props/MsRefs`, spec in `Spec/MsRefs`): by induction over the manuscript, rendering a content with enough fuel has one result, which is
  an error about the first bad name among those the content refers to, or no error if there is none (`Fares`); then over the pages
  in the order they are written in.
* C96 P (`Props/MsLetters`, spec in `Spec/MsLetters`): the bytes of a page are computed from the manuscript alone (`webPage`). By induction over
  the manuscript, rendering with enough fuel gives these bytes (`Gives`). For the second part, two manuscripts that differ in texts on one page
  only (`Off`) have the same places, tables of contents and names, hence the same other pages.
* C97 P (`Props/MsShown`, spec in `Spec/MsLetters`): C96 carried over to manuscripts in several files by the simulation of C90, to the server by
  C74 and C78; sections that do not start a page are shown by the server as `webShown` says. `Off` for plain text is in `Lemmas/MsEditTyped`.
* C98 P (`Props/DocsSite`, spec in `Spec/DocsSite`): the page template of the documentation is compiled by computation and run symbolically
  (`Lemmas/DocsL`); queries of sections by `Book`; that documents are only text by C87's check of templates. The plugin's methods
  are `Foreign` functions, for which the hypotheses of C74, C87 and C88 are proved; what each of them is shown as is in `Props/DocsPlugin`.
* C99 P (`Props/MsGrow`, spec in `Spec/MsGrow`): from C96, what a page is depends on its section and on what names stand for; places, names and
  tables of contents of the longer book are compared with those of the shorter one along the path to the new sections (`Lemmas/MsGrowL`).
  The search index after edits (C96, C99) is in `Props/MsIndexEdit`: what names stand for and the plain text of sections are functions (`Lemmas/MsIndexL`).
* C100 P (`Props/TemplateText`, spec in `Spec/TmplText`): templates as they are written are a type of their own, with the tokens and the marks they
  are spelled with; round trip by induction over it, for the lexer (`Lemmas/TmplTextL`), the cutting into texts and actions (`TmplChunksL`), and the
  parser (`TmplNodesL`, with bounds for the fuel); layout by comparing two runs of the parser (`TmplLayoutL`).
* C101 P (`Props/MsRetitle`, spec in `Spec/MsRetitle`): from C96 and C86, by a relation between the two books (`Renamed`, `Lemmas/MsRetitleL`) that keeps
  places, names and addresses; tables of contents and references are compared where they show a title.
* C102 P (`Props/Suggest`, spec in `Spec/Similar`): the table of distances (`Model/Similar`) satisfies the usual recurrence, from which it is at most one more after
  one mistake, and is reached by that many (`Lemmas/SimilarL`); with C75 and C76.
* C103 (`Props/DocsLit` and, for the templates of the site, `Props/DocsCode`, spec in `Spec/DocsLit`): leftmost longest matches of a pattern cut a text in exactly one way (`Cut`, `C103_calls_unique`); the pieces are those of
  `C51_pieces`. Rendering follows `C22_references` for the optional references.
* C104 P (`Props/Lexer`, specs in `Spec/Lexer` and `Spec/LexDoc`): each kind of part is coloured as specified whatever follows it, by induction over runs, comments and
  verbatim text; a surface document (C11) is a list of such parts with the calls of its tree. Where the lexer and the grammar disagree there are witnesses (`C104_false`).
* C105 (`Props/TmplLaws`, specs in `Spec/TmplLaws`): the laws are an inductive congruence; induction over it shows that templates related by it do the same with any
  data; for HTML, that they have the same states of the text at their actions; then induction on the nesting of templates.

## Where the code is wrong (findings behind the N's)

1. `Append` with several contents drops all but the first after the value it appends to.
2. `StripAux` crashes on a reference or target without content (a title `\reference{x}` with no display text).
3. `\split-sections` before `\single-page` wins; `\split-sections` below `\single-page` restarts header levels.
4. An argument that evaluates to nothing crashes the evaluator. A title that refers to itself diverges, and so does a file
   that includes itself.
5. Nested calls overwrite `InvokeLocation`: a method sees the location of the last call written in its arguments (`C38_exact`), so broken references with a call in their text and titles with one are reported at that call; arity and type errors are not annotated with their own call.
6. Targets inside references, targets and lazily made content are not collected.
7. Equal titles give equal file names: pages overwrite each other silently; `..` in a tag leaves the output directory.
8. After a failed template load the next one succeeds without loading; removed templates stay.
9. A target named like a page hides the page in the development server.
10. Parse errors at line ends are reported in column 0, for which the error display panics; marks are placed by bytes, and
    lines of 4096 bytes or more shift them; an empty line is shown as `(end of file)`.
11. A template for a style (`page` or `section` with a style) falls back to the plain one only for pages of the HTML engine; elsewhere a missing styled
    template is an error.
12. Comments: two in a row, or one at the start of a line, are not comments.
13. A blank in the indentation of a nested preformatted block leaks from the outer one.
14. A colon in a tag makes all references to it dead (`#ZgotmplZ`); targets in partials have no anchor.
15. An empty override template does not replace the built-in one. A failing render truncates the page file.
16. `--section-tag` with `--out` succeeds and writes nothing if the section is not a page of its own.
17. A target that is titled by a reference to itself makes the search index (but not the pages) run forever.
18. The text engine puts a section's text right behind its title (`In` + `side` = `Inside`), and fails on references, lists, links,
    images, tables and most styles, for which it has no templates.
19. The error page for a parse error at the end of a line fails half way; the message is added unescaped to an unfinished page. The
    page for an error of a reference that has a call in its arguments can show an empty line.
20. `\styled{page}` makes the HTML engine run forever; `\styled{toc}` on a section shows its list of sections in place of it.
21. A misspelt template directory goes unnoticed: the book is built with the built-in templates.
22. With `--section-path`, the search index lacks the sections of the file, and if the book is one page, nothing is written; the command succeeds.
23. When a template file is removed while `LoadTemplates` looks at the directory, the load fails, and the edited files it looked at before count as loaded:
    the next request is answered with the old templates.
24. A section inherits the plugins that its parent uses if it is written down in it, but not if it is included from a file.
25. In the documentation's `output-frame.tmpl` the address is rendered as text before it is put in the attribute, so it is escaped twice: a frame
    for `a?b&c` shows `a?b&amp;c` (`C98_frame_twice`).
26. The documentation's `\define` takes the arguments of a signature out of the highlighter's output, where they are escaped, and escapes them again as
    text: `{a&b}` is shown as `{a&amp;b}` (`C103_arg_twice`).
