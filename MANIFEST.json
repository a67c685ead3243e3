{
 "claims": [
  {
   "property": "C01",
   "status": "proved",
   "theorems": [
    "Booklit.Props.C01_parse_terminates"
   ],
   "note": ""
  },
  {
   "property": "C02",
   "status": "proved",
   "theorems": [
    "Booklit.Props.C02_prose_round_trip"
   ],
   "note": "lines are non-empty, without line breaks and do not begin with a blank (leading blanks are indentation and are dropped)"
  },
  {
   "property": "C03",
   "status": "proved",
   "theorems": [
    "Booklit.Props.C03_verbatim_exact"
   ],
   "note": "the text must not contain }}} nor end with }"
  },
  {
   "property": "C04",
   "status": "proved",
   "theorems": [
    "Booklit.Props.C04_verbatim_block"
   ],
   "note": ""
  },
  {
   "property": "C05",
   "status": "partial",
   "theorems": [
    "Booklit.Props.C05_comments_removed_partial",
    "Booklit.Props.C05_comment_in_text_partial",
    "Booklit.Props.C05_false"
   ],
   "note": "false for adjacent comments and for a comment at the start of a line"
  },
  {
   "property": "C06",
   "status": "proved",
   "theorems": [
    "Booklit.Props.C06_crlf_equivalent"
   ],
   "note": "simulation between runs on both texts, all rules and comments"
  },
  {
   "property": "C07",
   "status": "proved",
   "theorems": [
    "Booklit.Props.C07_call_locations"
   ],
   "note": ""
  },
  {
   "property": "C08",
   "status": "proved",
   "theorems": [
    "Booklit.Props.C08_tree_shape"
   ],
   "note": ""
  },
  {
   "property": "C09",
   "status": "proved",
   "theorems": [
    "Booklit.Props.C09_no_internal_failure"
   ],
   "note": ""
  },
  {
   "property": "C10",
   "status": "partial",
   "theorems": [
    "Booklit.Props.C10_exact",
    "Booklit.Props.C10_error_position_partial",
    "Booklit.Props.C10_false"
   ],
   "note": "line and column are wrong when the error is at a newline other than at the very beginning, and only then (C10_exact)"
  },
  {
   "property": "C100",
   "status": "proved",
   "theorems": [
    "Booklit.Props.C100_reads",
    "Booklit.Props.C100_layout",
    "Booklit.Props.C100_pages",
    "Booklit.Props.C100_constants",
    "Booklit.Props.C100_and",
    "Booklit.Props.C100_or",
    "Booklit.Props.C100_functions",
    "Booklit.Props.C100_raw"
   ],
   "note": ""
  },
  {
   "property": "C101",
   "status": "proved",
   "theorems": [
    "Booklit.Props.C101_retitle",
    "Booklit.Props.C101_index"
   ],
   "note": ""
  },
  {
   "property": "C102",
   "status": "proved",
   "theorems": [
    "Booklit.Props.C102_suggestions",
    "Booklit.Props.C102_slip",
    "Booklit.Props.C102_short",
    "Booklit.Props.C102_symmetric",
    "Booklit.Props.C102_page"
   ],
   "note": ""
  },
  {
   "property": "C103",
   "status": "proved",
   "theorems": [
    "Booklit.Props.C103_lit",
    "Booklit.Props.C103_lit_fails",
    "Booklit.Props.C103_calls_unique",
    "Booklit.Props.C103_args_unique",
    "Booklit.Props.C103_shown",
    "Booklit.Props.C103_define",
    "Booklit.Props.C103_found",
    "Booklit.Props.C103_godoc",
    "Booklit.Props.C103_godoc_panics",
    "Booklit.Props.C103_definition",
    "Booklit.Props.C103_code",
    "Booklit.Props.C103_raw",
    "Booklit.Props.C103_arg",
    "Booklit.Props.C103_call",
    "Booklit.Props.C103_arg_twice",
    "Booklit.Props.C103_link",
    "Booklit.Props.C103_site"
   ],
   "note": "the highlighter is a parameter; arguments of define are texts. Props/DocsCode: with the documentation's templates, byte for byte; C103_arg_twice: an argument is escaped twice"
  },
  {
   "property": "C104",
   "status": "partial",
   "theorems": [
    "Booklit.Props.C104_all",
    "Booklit.Props.C104_parts",
    "Booklit.Props.C104_no_errors",
    "Booklit.Props.C104_lone",
    "Booklit.Props.C104_calls_partial",
    "Booklit.Props.C104_false"
   ],
   "note": "false in general: after an escaped character a call or brace is not coloured as such, an argument that begins with - is taken for a comment, three nested groups are taken for verbatim text, and two closing braces in verbatim text are marked as an error (C104_false); proved for documents without these; the lexer library's loop is modelled after its documentation"
  },
  {
   "property": "C105",
   "status": "proved",
   "theorems": [
    "Booklit.Props.C105_laws",
    "Booklit.Props.C105_text",
    "Booklit.Props.C105_html",
    "Booklit.Props.C105_answers",
    "Booklit.Props.C105_range"
   ],
   "note": "Rewritten and Turned (Spec/TmplLaws) are the laws. The template language is the modelled part of text/template and html/template."
  },
  {
   "property": "C11",
   "status": "proved",
   "theorems": [
    "Booklit.Props.C11_print_parse",
    "Booklit.Props.C11_canonical_written"
   ],
   "note": "blocks nested in preformatted blocks are not canonical"
  },
  {
   "property": "C12",
   "status": "partial",
   "theorems": [
    "Booklit.Props.C12_blocks_independent_partial",
    "Booklit.Props.C12_false"
   ],
   "note": "true for blocks that follow one another, false for nested ones"
  },
  {
   "property": "C13",
   "status": "partial",
   "theorems": [
    "Booklit.Props.C13_append_partial",
    "Booklit.Props.C13_append_one_by_one_partial",
    "Booklit.Props.C13_false",
    "Booklit.Props.C13_exact",
    "Booklit.Props.C13_iff"
   ],
   "note": "appending two or more further contents in one call drops all but the first; exactly what is kept is in C13_exact, and C13_iff says that the property holds exactly for at most two contents"
  },
  {
   "property": "C14",
   "status": "proved",
   "theorems": [
    "Booklit.Props.C14_strip_complete_idempotent"
   ],
   "note": ""
  },
  {
   "property": "C15",
   "status": "partial",
   "theorems": [
    "Booklit.Props.C15_strip_returns_partial",
    "Booklit.Props.C15_false",
    "Booklit.Props.C15_exact"
   ],
   "note": "crashes on a reference or target without content; C15_exact says exactly when it crashes"
  },
  {
   "property": "C16",
   "status": "partial",
   "theorems": [
    "Booklit.Props.C16_strip_exact_partial",
    "Booklit.Props.C16_false",
    "Booklit.Props.C16_exact"
   ],
   "note": "auxiliary content that is not an element of a sequence is kept; C16_exact says exactly what is left, in all cases"
  },
  {
   "property": "C17",
   "status": "proved",
   "theorems": [
    "Booklit.Props.C17_characters",
    "Booklit.Props.C17_stable",
    "Booklit.Props.C17_depends_on_text",
    "Booklit.Props.C17_words",
    "Booklit.Props.C17_and"
   ],
   "note": "dependence on the text for titles of text, styles and links with auxiliary parts as elements of sequences"
  },
  {
   "property": "C18",
   "status": "proved",
   "theorems": [
    "Booklit.Props.C18_numbers"
   ],
   "note": ""
  },
  {
   "property": "C19",
   "status": "proved",
   "theorems": [
    "Booklit.Props.C19_tree_queries"
   ],
   "note": ""
  },
  {
   "property": "C20",
   "status": "proved",
   "theorems": [
    "Booklit.Props.C20_next_visits",
    "Booklit.Props.C20_prev"
   ],
   "note": ""
  },
  {
   "property": "C21",
   "status": "proved",
   "theorems": [
    "Booklit.Props.C21_find_tag"
   ],
   "note": ""
  },
  {
   "property": "C22",
   "status": "proved",
   "theorems": [
    "Booklit.Props.C22_references",
    "Booklit.Props.C22_allow_broken",
    "Booklit.Props.C22_remembered",
    "Booklit.Props.C22_out_of_date"
   ],
   "note": "The tag that a reference object remembers is modelled apart (Model/Memo): it changes no answer while the sections stay as they are (C22_remembered). References resolved while a book is being loaded could remember outdated tags (C22_out_of_date); none that is kept is: contents made into strings by calls are thrown away, and titles are stripped, which copies references."
  },
  {
   "property": "C23",
   "status": "partial",
   "theorems": [
    "Booklit.Props.C23_header_levels",
    "Booklit.Props.C23_document_partial",
    "Booklit.Props.C23_depth_within_page_partial",
    "Booklit.Props.C23_false"
   ],
   "note": "split-sections below single-page restarts the depth within a page (C23_false); proved for loaded documents whenever no section above is declared to be a single page (C23_document_partial)"
  },
  {
   "property": "C24",
   "status": "proved",
   "theorems": [
    "Booklit.Props.C24_links_to_pages"
   ],
   "note": ""
  },
  {
   "property": "C25",
   "status": "proved",
   "theorems": [
    "Booklit.Props.C25_one_page_each"
   ],
   "note": "default templates"
  },
  {
   "property": "C26",
   "status": "partial",
   "theorems": [
    "Booklit.Props.C26_different_files_partial",
    "Booklit.Props.C26_false",
    "Booklit.Props.C26_same_title",
    "Booklit.Props.C26_iff",
    "Booklit.Props.C26_same_place"
   ],
   "note": "False as stated: tags with slashes can name the same file (C26_false), and pages with equal titles overwrite each other without an error (C26_same_title). Proved: pages with different slash-free primary tags are written to different files, and if that holds for all pages none is overwritten. C26_iff: with slash-free primary tags, every file holds the last page with its tag, and no page is overwritten exactly if the tags differ. C26_same_place: tags with slashes that stay in the output directory name the same file exactly if they lead to the same place."
  },
  {
   "property": "C27",
   "status": "partial",
   "theorems": [
    "Booklit.Props.C27_false",
    "Booklit.Props.C27_single_page_wins_partial",
    "Booklit.Props.C27_single_page_first_partial",
    "Booklit.Props.C27_exact",
    "Booklit.Props.C27_document",
    "Booklit.Props.C27_sections",
    "Booklit.Props.C27_subsection",
    "Booklit.Props.C27_included"
   ],
   "note": "holds when \\single-page precedes \\split-sections and the subsections; a \\split-sections before it wins (C27_false); C27_exact and C27_document say exactly when a section is split: iff some \\split-sections comes before every \\single-page and no section above is a single page by then (for plugins without node-typed arguments); C27_sections, C27_subsection and C27_included say it for every section of a document, inline or included"
  },
  {
   "property": "C28",
   "status": "proved",
   "theorems": [
    "Booklit.Props.C28_loaded_tree"
   ],
   "note": ""
  },
  {
   "property": "C29",
   "status": "proved",
   "theorems": [
    "Booklit.Props.C29_sections_isolated",
    "Booklit.Props.C29_files_isolated",
    "Booklit.Props.C29_inline_section_only_adds"
   ],
   "note": ""
  },
  {
   "property": "C30",
   "status": "proved",
   "theorems": [
    "Booklit.Props.C30_plugins",
    "Booklit.Props.C30_inherited",
    "Booklit.Props.C34_outline",
    "Booklit.Props.C34_children"
   ],
   "note": "for plugins whose methods take no unevaluated arguments; foreign methods are modelled as not changing sections"
  },
  {
   "property": "C31",
   "status": "proved",
   "theorems": [
    "Booklit.Props.C31_first_plugin_runs",
    "Booklit.Props.C31_lookup",
    "Booklit.Props.C31_base_not_shadowed",
    "Booklit.Props.C31_undefined"
   ],
   "note": ""
  },
  {
   "property": "C32",
   "status": "proved",
   "theorems": [
    "Booklit.Props.C32_title_stays",
    "Booklit.Props.C32_second_title_fails",
    "Booklit.Props.C32_first_title_is_set",
    "Booklit.Props.C32_second_title_error"
   ],
   "note": "a title equal to the empty string counts as no title; only a foreign plugin can set one"
  },
  {
   "property": "C33",
   "status": "partial",
   "theorems": [
    "Booklit.Props.C33_located_unchanged",
    "Booklit.Props.C33_wrapped_at_most_once",
    "Booklit.Props.C33_own_location",
    "Booklit.Props.C33_own_location_partial",
    "Booklit.Props.C33_false"
   ],
   "note": "errors about the number or types of arguments are not given the location of their own call"
  },
  {
   "property": "C34",
   "status": "proved",
   "theorems": [
    "Booklit.Props.C34_outline",
    "Booklit.Props.C34_children"
   ],
   "note": "for plugins whose methods take no unevaluated arguments; foreign methods are modelled as not changing sections"
  },
  {
   "property": "C35",
   "status": "partial",
   "theorems": [
    "Booklit.Props.C35_no_crash_partial",
    "Booklit.Props.C35_false"
   ],
   "note": "False as stated: arguments that evaluate to nothing, and titles with bare references or targets, crash (C35_false, by witness). Proved for all file systems whose documents have no such argument (World.tame, decidable from the parsed files), with baselit only, any fuel, any earlier loads."
  },
  {
   "property": "C36",
   "status": "partial",
   "theorems": [
    "Booklit.Props.C36_loading_ends_partial",
    "Booklit.Props.C36_exact_partial",
    "Booklit.Props.C36_false",
    "Booklit.Props.C36_cycle_never_ends",
    "Booklit.Props.C36_no_cycle"
   ],
   "note": "False as stated: a title that refers to itself makes loading diverge without any include (C36_false, for every fuel). Proved for tame documents with literally named, acyclic includes: the outcome is the same section or error for all large enough fuel. A file that includes itself never loads. C36_no_cycle: conversely, a document that loads has no endless chain of includes, so documents with include cycles never load. C36_exact_partial: for documents whose reachable files are tame and name their includes literally, loading ends without crash unless there is an endless chain of includes, and never succeeds if there is one; nothing is asked of files the document does not lead to."
  },
  {
   "property": "C37",
   "status": "proved",
   "theorems": [
    "Booklit.Props.C37_arity",
    "Booklit.Props.C37_well_typed"
   ],
   "note": ""
  },
  {
   "property": "C38",
   "status": "partial",
   "theorems": [
    "Booklit.Props.C38_own_location_partial",
    "Booklit.Props.C38_false",
    "Booklit.Props.C38_exact",
    "Booklit.Props.C38_reference",
    "Booklit.Props.C38_title",
    "Booklit.Props.C38_own"
   ],
   "note": "holds when no argument contains a call; C38_exact says which location a method sees in general: that of the last call written in its arguments; the same for references and titles"
  },
  {
   "property": "C39",
   "status": "proved",
   "theorems": [
    "Booklit.Props.C39_prose"
   ],
   "note": "end to end through parser, evaluator and text"
  },
  {
   "property": "C40",
   "status": "proved",
   "theorems": [
    "Booklit.Props.C40_distinct_methods",
    "Booklit.Props.C40_double_dash"
   ],
   "note": ""
  },
  {
   "property": "C41",
   "status": "proved",
   "theorems": [
    "Booklit.Props.C41_table",
    "Booklit.Props.C41_definitions",
    "Booklit.Props.C41_lists"
   ],
   "note": "arguments that evaluate to nothing crash, see C35"
  },
  {
   "property": "C42",
   "status": "partial",
   "theorems": [
    "Booklit.Props.C42_targets_become_tags_partial",
    "Booklit.Props.C42_all_targets_become_tags_partial",
    "Booklit.Props.C42_false",
    "Booklit.Props.C42_partials_in_any_order"
   ],
   "note": "False as stated: targets inside references, targets and lazily made contents are not collected (C42_false, by witness). Proved: every target that is not inside another target or a reference becomes a tag of its section; all of them do when no target is nested; the order in which the partials are walked does not matter."
  },
  {
   "property": "C43",
   "status": "proved",
   "theorems": [
    "Booklit.Props.C43_collect_only_adds_tags",
    "Booklit.Props.C43_collect_each_section_once"
   ],
   "note": ""
  },
  {
   "property": "C44",
   "status": "proved",
   "theorems": [
    "Booklit.Props.C44_never_stale",
    "Booklit.Props.C44_current",
    "Booklit.Props.C44_needs_times",
    "Booklit.Props.C44_removed"
   ],
   "note": "for every interleaving of loads, edits and removals; C44_needs_times shows that increasing modification times are needed"
  },
  {
   "property": "C45",
   "status": "proved",
   "theorems": [
    "Booklit.Props.C45_at_most_once",
    "Booklit.Props.C45_same_result",
    "Booklit.Props.C45_result",
    "Booklit.Props.C45_no_deadlock",
    "Booklit.Props.C45_after_panic"
   ],
   "note": "for every schedule; C45_after_panic shows what later callers get if the generator panicked"
  },
  {
   "property": "C46",
   "status": "partial",
   "theorems": [
    "Booklit.Props.C46_up_to_date_partial",
    "Booklit.Props.C46_reports_broken",
    "Booklit.Props.C46_false_broken",
    "Booklit.Props.C46_false_removed",
    "Booklit.Props.C46_false_older"
   ],
   "note": "False as stated: after a failed load the next one succeeds without loading anything, removed templates stay, older files are not noticed (witnesses). Proved for all histories in which files are added or edited with later times: once all files parse, loading succeeds and the templates in use are those of the directory."
  },
  {
   "property": "C47",
   "status": "partial",
   "theorems": [
    "Booklit.Props.C47_exact",
    "Booklit.Props.C47_requests",
    "Booklit.Props.C47_links_to_pages_partial",
    "Booklit.Props.C47_false"
   ],
   "note": "False as stated: a target called like a page hides the page (C47_false). Proved: what every request shows; and that the path of any tag's URL shows its page if no other section has a tag of that name. C47_exact: a request shows the first section in document order with a tag of that name, so a page is shown at its own path if and only if no section before it has a tag called like it."
  },
  {
   "property": "C48",
   "status": "proved",
   "theorems": [
    "Booklit.Props.C48_own_page",
    "Booklit.Props.C48_file_server",
    "Booklit.Props.C48_no_deadlock"
   ],
   "note": "for every schedule of any number of requests, with failures and panics"
  },
  {
   "property": "C49",
   "status": "proved",
   "theorems": [
    "Booklit.Props.C49_search_index",
    "Booklit.Props.C49_own_tags"
   ],
   "note": "C49_own_tags shows that loaded books meet the hypothesis"
  },
  {
   "property": "C50",
   "status": "partial",
   "theorems": [
    "Booklit.Props.C50_utf8",
    "Booklit.Props.C50_line",
    "Booklit.Props.C50_call_partial",
    "Booklit.Props.C50_parse_partial",
    "Booklit.Props.C50_newline_panics",
    "Booklit.Props.C50_false_newline",
    "Booklit.Props.C50_false_end",
    "Booklit.Props.C50_false_bytes",
    "Booklit.Props.C50_false_long"
   ],
   "note": "false for parse errors at the end of a line or file, for marks after non-ASCII text and in files with lines of 4096 bytes or more; proved otherwise"
  },
  {
   "property": "C51",
   "status": "proved",
   "theorems": [
    "Booklit.Props.C51_pieces",
    "Booklit.Props.C51_highlighted",
    "Booklit.Props.C51_plain",
    "Booklit.Props.C51_one"
   ],
   "note": "the highlighter itself is a dependency and a parameter of the model"
  },
  {
   "property": "C52",
   "status": "partial",
   "theorems": [
    "Booklit.Props.C52_text_partial",
    "Booklit.Props.C52_false",
    "Booklit.Props.C52_attributes_partial",
    "Booklit.Props.C52_page",
    "Booklit.Props.C52_documents"
   ],
   "note": "True for texts without NUL; a NUL arrives as U+FFFD (C52_false). Beyond the property: whole pages are well-formed and harmless."
  },
  {
   "property": "C53",
   "status": "partial",
   "theorems": [
    "Booklit.Props.C53_page_partial",
    "Booklit.Props.C53_exact",
    "Booklit.Props.C53_false_section",
    "Booklit.Props.C53_false_text"
   ],
   "note": "False for sections inside pages and for the text engine (witnesses); proved for pages of the HTML engine."
  },
  {
   "property": "C54",
   "status": "partial",
   "theorems": [
    "Booklit.Props.C54_in_destination_partial",
    "Booklit.Props.C54_below_partial",
    "Booklit.Props.C54_false"
   ],
   "note": "False as stated: a tag with .. is written outside the output directory (C54_false). Proved for tags without slashes, and for all tags that, followed part by part, do not lead above the output directory (C54_below_partial)."
  },
  {
   "property": "C55",
   "status": "proved",
   "theorems": [
    "Booklit.Props.C55_toc"
   ],
   "note": ""
  },
  {
   "property": "C56",
   "status": "proved",
   "theorems": [
    "Booklit.Props.C56_last_registration"
   ],
   "note": ""
  },
  {
   "property": "C57",
   "status": "proved",
   "theorems": [
    "Booklit.Props.C57_last_write"
   ],
   "note": ""
  },
  {
   "property": "C58",
   "status": "proved",
   "theorems": [
    "Booklit.Props.C58_paragraphs"
   ],
   "note": "plugins other than baselit are assumed to return such content"
  },
  {
   "property": "C59",
   "status": "proved",
   "theorems": [
    "Booklit.Props.C59_tags_of_sections"
   ],
   "note": ""
  },
  {
   "property": "C60",
   "status": "proved",
   "theorems": [
    "Booklit.Props.C60_has_anchors",
    "Booklit.Props.C60_anchor_tags"
   ],
   "note": ""
  },
  {
   "property": "C61",
   "status": "proved",
   "theorems": [
    "Booklit.Props.C61_relative",
    "Booklit.Props.C34_outline",
    "Booklit.Props.C61_all_there"
   ],
   "note": "for plugins whose methods take no unevaluated arguments; foreign methods are modelled as not changing sections"
  },
  {
   "property": "C62",
   "status": "proved",
   "theorems": [
    "Booklit.Props.C62_settings",
    "Booklit.Props.C34_outline"
   ],
   "note": "for plugins whose methods take no unevaluated arguments; foreign methods are modelled as not changing sections"
  },
  {
   "property": "C63",
   "status": "proved",
   "theorems": [
    "Booklit.Props.C63_error_places",
    "Booklit.Props.C63_error_text",
    "Booklit.Props.C63_places"
   ],
   "note": "Other plugins are an arbitrary parameter: what they make satisfies F, their errors satisfy G. The place of a second title may be that of a call inside its arguments (C38_false)."
  },
  {
   "property": "C64",
   "status": "proved",
   "theorems": [
    "Booklit.Props.C64_origin",
    "Booklit.Props.C64_text",
    "Booklit.Props.C64_reference",
    "Booklit.Props.C64_link"
   ],
   "note": "Says which written call or text each part comes from, not the nesting of the parts."
  },
  {
   "property": "C65",
   "status": "partial",
   "theorems": [
    "Booklit.Props.C65_no_dead_links_partial",
    "Booklit.Props.C65_false_colon",
    "Booklit.Props.C65_false_partial"
   ],
   "note": "False for tags with a colon and for targets in partials (witnesses); proved for all other names, and for plugins that make no raw HTML, references, tables of contents or deferred content."
  },
  {
   "property": "C66",
   "status": "proved",
   "theorems": [
    "Booklit.Props.C66_page",
    "Booklit.Props.C66_documents",
    "Booklit.Props.C66_address"
   ],
   "note": "Built-in HTML templates, no raw HTML; other plugins make no references, sections or tables of contents of their own. The page is specified by the relation Looks, independent of the templates."
  },
  {
   "property": "C67",
   "status": "proved",
   "theorems": [
    "Booklit.Props.C67_sane_books",
    "Booklit.Props.C67_documents",
    "Booklit.Props.C67_needed",
    "Booklit.Props.C67_load"
   ],
   "note": "Sane states what a book needs in terms of its section tree; InOrder the same for loaded documents. C67_needed shows that no condition can be dropped."
  },
  {
   "property": "C68",
   "status": "proved",
   "theorems": [
    "Booklit.Props.C68_build",
    "Booklit.Props.C68_only_its_files",
    "Booklit.Props.C68_documents"
   ],
   "note": "For any engine (C68_build) and for loaded documents in order with the HTML engine (C68_documents). Pages that share a file: one of them is in it, see C26. --section-path is left out of C68_only_its_files."
  },
  {
   "property": "C69",
   "status": "proved",
   "theorems": [
    "Booklit.Props.C69_reads",
    "Booklit.Props.C69_any_order",
    "Booklit.Props.C69_harmless",
    "Booklit.Props.C69_documents",
    "Booklit.Props.C69_needed"
   ],
   "note": "Both variants of the encoder (before and since Go 1.22). Read back by a JSON reader written for the purpose (Spec/Json). C69_needed: without the condition on titles the making of the index may not end."
  },
  {
   "property": "C70",
   "status": "partial",
   "theorems": [
    "Booklit.Props.C70_closed_site_partial"
   ],
   "note": "Proved for documents in order with page tags that have no slash and differ, tags without characters that mean something in URLs, and no targets in partials; the other cases are false, see C26, C54 and C65."
  },
  {
   "property": "C71",
   "status": "partial",
   "theorems": [
    "Booklit.Props.C71_failed_build_partial",
    "Booklit.Props.C71_false"
   ],
   "note": "False: the page at which the build fails is lost. Proved: all other files are kept or complete."
  },
  {
   "property": "C72",
   "status": "partial",
   "theorems": [
    "Booklit.Props.C72_section_partial",
    "Booklit.Props.C72_false",
    "Booklit.Props.C72_exact"
   ],
   "note": "False for sections that are not pages: nothing is written for them and no error reported. C72_exact says what happens in all cases: unknown tags, tags of several sections, sections that are not pages."
  },
  {
   "property": "C73",
   "status": "proved",
   "theorems": [
    "Booklit.Props.C73_page",
    "Booklit.Props.C73_documents",
    "Booklit.Props.C73_rendered",
    "Booklit.Props.C73_false",
    "Booklit.Props.C73_needed"
   ],
   "note": "Built-in text templates. C73_false: nothing separates the title from the text that follows (In + side is shown as Inside). C73_needed: content kinds for which the text engine has no template and fails."
  },
  {
   "property": "C74",
   "status": "proved",
   "theorems": [
    "Booklit.Props.C74_history",
    "Booklit.Props.C74_load_error",
    "Booklit.Props.C74_render_error",
    "Booklit.Props.C74_like_build",
    "Booklit.Props.C74_needed"
   ],
   "note": "One request at a time, built-in templates, plugins that see only the sections they are given. C74_needed: with an unchanged modification time the old page is shown."
  },
  {
   "property": "C75",
   "status": "proved",
   "theorems": [
    "Booklit.Props.C75_reference_errors",
    "Booklit.Props.C75_answers"
   ],
   "note": "HTML engine. Other plugins make no references and targets of their own and their errors have no places."
  },
  {
   "property": "C76",
   "status": "partial",
   "theorems": [
    "Booklit.Props.C76_page",
    "Booklit.Props.C76_answers_partial",
    "Booklit.Props.C76_served_partial",
    "Booklit.Props.C76_call_partial",
    "Booklit.Props.C76_newline",
    "Booklit.Props.C76_false",
    "Booklit.Props.C76_false_line"
   ],
   "note": "False for parse errors at the end of a line (no page but an unfinished one with an unescaped message) and for reference errors whose place is that of a nested call (an empty line is shown). Proved for all other errors. The style sheet is a parameter without < and &."
  },
  {
   "property": "C77",
   "status": "partial",
   "theorems": [
    "Booklit.Props.C77_report",
    "Booklit.Props.C77_places_partial"
   ],
   "note": "The report of any error is characterised by C77_report. That the line shown is that of the call fails in files with lines of 4096 bytes or more (C50_false_long). textio.PrefixWriter is modelled by its documentation."
  },
  {
   "property": "C78",
   "status": "proved",
   "theorems": [
    "Booklit.Props.C78_same_time",
    "Booklit.Props.C78_up_to_date",
    "Booklit.Props.C78_mixed"
   ],
   "note": "for all schedules; C78_mixed shows that an answer given while several files are changed may mix their versions"
  },
  {
   "property": "C79",
   "status": "proved",
   "theorems": [
    "Booklit.Props.C79_html",
    "Booklit.Props.C79_text",
    "Booklit.Props.C79_documents",
    "Booklit.Props.C79_harmless",
    "Booklit.Props.C79_reference_file"
   ],
   "note": "The model of the template language (parsing with trim markers, pipelines, range, if, template, contextual escaping) is trusted like other library code; the shipped templates themselves are no longer transcribed by hand. Styles excluded in HTML are exactly those named in the statement."
  },
  {
   "property": "C80",
   "status": "proved",
   "theorems": [
    "Booklit.Props.C80_unused",
    "Booklit.Props.C80_directory",
    "Booklit.Props.C80_copies",
    "Booklit.Props.C80_documents"
   ],
   "note": "For all templates of the modelled language, which is text/template without block, define, printf and comparison functions other than eq."
  },
  {
   "property": "C81",
   "status": "proved",
   "theorems": [
    "Booklit.Props.C81_status",
    "Booklit.Props.C81_streams",
    "Booklit.Props.C81_complete",
    "Booklit.Props.C81_shipped",
    "Booklit.Props.C81_text",
    "Booklit.Props.C81_other_engine",
    "Booklit.Props.C81_no_templates",
    "Booklit.Props.C81_unused",
    "Booklit.Props.C81_bad_template",
    "Booklit.Props.C81_plugins"
   ],
   "note": "Not modelled: the parsing of flags, logging, profiling. C81_shipped and C81_unused have the hypotheses of C79 and C80 about styles. A misspelt template directory goes unnoticed (C81_misspelt)."
  },
  {
   "property": "C82",
   "status": "proved",
   "theorems": [
    "Booklit.Props.C82_loaded",
    "Booklit.Props.C82_numbers",
    "Booklit.Props.C82_references",
    "Booklit.Props.C82_page",
    "Booklit.Props.C82_printed",
    "Booklit.Props.C82_files"
   ],
   "note": "The pages are those of the HTML engine model (C79 relates it to the shipped templates). The search index lacks the sections of the file (C82_index); if the book is one page, nothing is written and the command succeeds (C82_nothing)."
  },
  {
   "property": "C83",
   "status": "partial",
   "theorems": [
    "Booklit.Props.C83_history",
    "Booklit.Props.C83_like_build",
    "Booklit.Props.C83_reports_partial",
    "Booklit.Props.C83_false_broken"
   ],
   "note": "False for a template that does not parse: only the first request after the change reports it, the next ones are answered with built-in templates (C83_false_broken, from finding 8). C83_history and C83_like_build are proved in full; C83_reports_partial is about the first request. The removal of templates is excluded by the property (C46_false_removed)."
  },
  {
   "property": "C84",
   "status": "partial",
   "theorems": [
    "Booklit.Props.C84_reload_partial",
    "Booklit.Props.C84_undisturbed_partial",
    "Booklit.Props.C84_no_mixture",
    "Booklit.Props.C84_blame",
    "Booklit.Props.C84_uninterrupted",
    "Booklit.Props.C84_false_failed",
    "Booklit.Props.C84_false_same_time"
   ],
   "note": "False after a load that failed (a file removed while the directory is looked through makes the others count as loaded) and for edits that do not advance the modification time (witnesses). Proved for all interleavings of edits, removals and the steps of loads otherwise; no mixture and the causes of failures without restriction."
  },
  {
   "property": "C85",
   "status": "proved",
   "theorems": [
    "Booklit.Props.C85_site"
   ],
   "note": "Pages are those of the HTML engine model without forced partials (C79 relates it to the shipped templates). Manuscripts use the part of the language named in Spec/Manuscript; other functions of the base plugin are covered by other properties. The text of a reference may contain further references if these have texts of their own too (without, rendering panics: finding 2 in DESIGN.md)."
  },
  {
   "property": "C86",
   "status": "proved",
   "theorems": [
    "Booklit.Props.C86_index",
    "Booklit.Props.C86_lists",
    "Booklit.Props.C86_tables",
    "Booklit.Props.C86_definitions"
   ],
   "note": "If a name is given several times the entry tells of one section or target with it (the last, see C49). Lists: for items that do not begin with a line end."
  },
  {
   "property": "C87",
   "status": "proved",
   "theorems": [
    "Booklit.Props.C87_page",
    "Booklit.Props.C87_book",
    "Booklit.Props.C87_documents",
    "Booklit.Props.C87_text",
    "Booklit.Props.C87_attribute",
    "Booklit.Props.C87_address",
    "Booklit.Props.C87_query",
    "Booklit.Props.C87_like_address",
    "Booklit.Props.C87_names"
   ],
   "note": "What a browser makes of a page is a tokenizer written as a small separate specification (Spec/Markup); templates in which a value would be put into a script, a style sheet or an attribute holding either do not compile in the model, which makes them errors; html/template has escapers for these."
  },
  {
   "property": "C88",
   "status": "proved",
   "theorems": [
    "Booklit.Props.C88_build",
    "Booklit.Props.C88_positions",
    "Booklit.Props.C88_crlf",
    "Booklit.Props.C88_layout"
   ],
   "note": "Plugins other than the built-in one must not look at places (`Blind`). Templates of the model cannot read the places that sections and references have as fields (.Location and others); in Go they can."
  },
  {
   "property": "C89",
   "status": "proved",
   "theorems": [
    "Booklit.Props.C89_build",
    "Booklit.Props.C89_html",
    "Booklit.Props.C89_text",
    "Booklit.Props.C89_files",
    "Booklit.Props.C89_move_section",
    "Booklit.Props.C89_join_section",
    "Booklit.Props.C89_plugins",
    "Booklit.Props.C89_path_shown",
    "Booklit.Props.C89_answers"
   ],
   "note": "For books without plugins, with the templates of the program, and without sections of the styles string, toc, page and raw-html (for text: string only). C89_plugins and C89_path_shown show that it is false for plugins in use and for sections styled string. Only builds that succeed are compared: error messages name files."
  },
  {
   "property": "C90",
   "status": "proved",
   "theorems": [
    "Booklit.Props.C90_site",
    "Booklit.Props.C90_index"
   ],
   "note": "For manuscripts as in C85, files in one directory, no plugins. Names of files must not contain characters that mean something in booklit."
  },
  {
   "property": "C91",
   "status": "proved",
   "theorems": [
    "Booklit.Props.C91_valid",
    "Booklit.Props.C91_invalid",
    "Booklit.Props.C91_only_utf8",
    "Booklit.Props.C91_stray"
   ],
   "note": "The parser is run on the decoded characters with a count of how far it has read; the rest of the model starts from texts, which C91_valid connects with the bytes of files."
  },
  {
   "property": "C92",
   "status": "proved",
   "theorems": [
    "Booklit.Props.C92_message",
    "Booklit.Props.C92_iff"
   ],
   "note": "That everything that could stand there is listed is not claimed."
  },
  {
   "property": "C93",
   "status": "proved",
   "theorems": [
    "Booklit.Props.C93_pages",
    "Booklit.Props.C93_links",
    "Booklit.Props.C93_others",
    "Booklit.Props.C93_files",
    "Booklit.Props.C93_files_others",
    "Booklit.Props.C93_same_time"
   ],
   "note": "With the built-in templates. Several files: without plugins other than the built-in one."
  },
  {
   "property": "C94",
   "status": "proved",
   "theorems": [
    "Booklit.Props.C94_typed",
    "Booklit.Props.C94_fails"
   ],
   "note": "With the built-in templates. Title and text of a section are not kept apart, see C73."
  },
  {
   "property": "C95",
   "status": "proved",
   "theorems": [
    "Booklit.Props.C95_built",
    "Booklit.Props.C95_blamed",
    "Booklit.Props.C95_exactly"
   ],
   "note": ""
  },
  {
   "property": "C96",
   "status": "proved",
   "theorems": [
    "Booklit.Props.C96_letters",
    "Booklit.Props.C96_edit",
    "Booklit.Props.C96_index"
   ],
   "note": ""
  },
  {
   "property": "C97",
   "status": "proved",
   "theorems": [
    "Booklit.Props.C97_files",
    "Booklit.Props.C97_edit",
    "Booklit.Props.C97_shown",
    "Booklit.Props.C97_shown_files",
    "Booklit.Props.C97_same_time",
    "Booklit.Props.C97_shown_edit",
    "Booklit.Props.C97_typed_edit"
   ],
   "note": ""
  },
  {
   "property": "C98",
   "status": "proved",
   "theorems": [
    "Booklit.Props.C98_page",
    "Booklit.Props.C98_entry",
    "Booklit.Props.C98_only_text",
    "Booklit.Props.C98_local",
    "Booklit.Props.C98_blind",
    "Booklit.Props.C98_documents",
    "Booklit.Props.C98_fruit",
    "Booklit.Props.C98_solid",
    "Booklit.Props.C98_frame",
    "Booklit.Props.C98_frame_twice",
    "Booklit.Props.C98_wraps",
    "Booklit.Props.C98_columns",
    "Booklit.Props.C98_template_link",
    "Booklit.Props.C98_asked",
    "Booklit.Props.C98_section",
    "Booklit.Props.C98_splash",
    "Booklit.Props.C98_called",
    "Booklit.Props.C98_registry"
   ],
   "note": ""
  },
  {
   "property": "C99",
   "status": "proved",
   "theorems": [
    "Booklit.Props.C99_grow",
    "Booklit.Props.C99_shrink",
    "Booklit.Props.C99_index"
   ],
   "note": ""
  }
 ]
}