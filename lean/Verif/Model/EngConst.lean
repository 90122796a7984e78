import Verif.Model.Py

/-! Constant tables of /repo/src/justhtml/core/constants.py and /repo/src/justhtml/parser/engine.py used by the parser engine. Sets are lists of their
members. -/
namespace JH.Eng

/-- core/constants.py:28-30 `MATHML_ATTRIBUTE_ADJUSTMENTS`. -/
def mathAttrAdjust : List (Str × Str) :=
  [(c%"definitionurl", c%"definitionURL")]

/-- core/constants.py:33-92 `SVG_ATTRIBUTE_ADJUSTMENTS`. -/
def svgAttrAdjust : List (Str × Str) :=
  [(c%"attributename", c%"attributeName"), (c%"attributetype", c%"attributeType"), (c%"basefrequency", c%"baseFrequency"),
   (c%"baseprofile", c%"baseProfile"), (c%"calcmode", c%"calcMode"), (c%"clippathunits", c%"clipPathUnits"),
   (c%"diffuseconstant", c%"diffuseConstant"), (c%"edgemode", c%"edgeMode"), (c%"filterunits", c%"filterUnits"),
   (c%"glyphref", c%"glyphRef"), (c%"gradienttransform", c%"gradientTransform"), (c%"gradientunits", c%"gradientUnits"),
   (c%"kernelmatrix", c%"kernelMatrix"), (c%"kernelunitlength", c%"kernelUnitLength"), (c%"keypoints", c%"keyPoints"),
   (c%"keysplines", c%"keySplines"), (c%"keytimes", c%"keyTimes"), (c%"lengthadjust", c%"lengthAdjust"),
   (c%"limitingconeangle", c%"limitingConeAngle"), (c%"markerheight", c%"markerHeight"), (c%"markerunits", c%"markerUnits"),
   (c%"markerwidth", c%"markerWidth"), (c%"maskcontentunits", c%"maskContentUnits"), (c%"maskunits", c%"maskUnits"),
   (c%"numoctaves", c%"numOctaves"), (c%"pathlength", c%"pathLength"), (c%"patterncontentunits", c%"patternContentUnits"),
   (c%"patterntransform", c%"patternTransform"), (c%"patternunits", c%"patternUnits"), (c%"pointsatx", c%"pointsAtX"),
   (c%"pointsaty", c%"pointsAtY"), (c%"pointsatz", c%"pointsAtZ"), (c%"preservealpha", c%"preserveAlpha"),
   (c%"preserveaspectratio", c%"preserveAspectRatio"), (c%"primitiveunits", c%"primitiveUnits"), (c%"refx", c%"refX"),
   (c%"refy", c%"refY"), (c%"repeatcount", c%"repeatCount"), (c%"repeatdur", c%"repeatDur"),
   (c%"requiredextensions", c%"requiredExtensions"), (c%"requiredfeatures", c%"requiredFeatures"),
   (c%"specularconstant", c%"specularConstant"), (c%"specularexponent", c%"specularExponent"), (c%"spreadmethod", c%"spreadMethod"),
   (c%"startoffset", c%"startOffset"), (c%"stddeviation", c%"stdDeviation"), (c%"stitchtiles", c%"stitchTiles"),
   (c%"surfacescale", c%"surfaceScale"), (c%"systemlanguage", c%"systemLanguage"), (c%"tablevalues", c%"tableValues"),
   (c%"targetx", c%"targetX"), (c%"targety", c%"targetY"), (c%"textlength", c%"textLength"), (c%"viewbox", c%"viewBox"),
   (c%"viewtarget", c%"viewTarget"), (c%"xchannelselector", c%"xChannelSelector"), (c%"ychannelselector", c%"yChannelSelector"),
   (c%"zoomandpan", c%"zoomAndPan")]

/-- core/constants.py:379-416 `SVG_TAG_NAME_ADJUSTMENTS`. -/
def svgTagAdjust : List (Str × Str) :=
  [(c%"altglyph", c%"altGlyph"), (c%"altglyphdef", c%"altGlyphDef"), (c%"altglyphitem", c%"altGlyphItem"),
   (c%"animatecolor", c%"animateColor"), (c%"animatemotion", c%"animateMotion"), (c%"animatetransform", c%"animateTransform"),
   (c%"clippath", c%"clipPath"), (c%"feblend", c%"feBlend"), (c%"fecolormatrix", c%"feColorMatrix"),
   (c%"fecomponenttransfer", c%"feComponentTransfer"), (c%"fecomposite", c%"feComposite"), (c%"feconvolvematrix", c%"feConvolveMatrix"),
   (c%"fediffuselighting", c%"feDiffuseLighting"), (c%"fedisplacementmap", c%"feDisplacementMap"),
   (c%"fedistantlight", c%"feDistantLight"), (c%"feflood", c%"feFlood"), (c%"fefunca", c%"feFuncA"), (c%"fefuncb", c%"feFuncB"),
   (c%"fefuncg", c%"feFuncG"), (c%"fefuncr", c%"feFuncR"), (c%"fegaussianblur", c%"feGaussianBlur"), (c%"feimage", c%"feImage"),
   (c%"femerge", c%"feMerge"), (c%"femergenode", c%"feMergeNode"), (c%"femorphology", c%"feMorphology"), (c%"feoffset", c%"feOffset"),
   (c%"fepointlight", c%"fePointLight"), (c%"fespecularlighting", c%"feSpecularLighting"), (c%"fespotlight", c%"feSpotLight"),
   (c%"fetile", c%"feTile"), (c%"feturbulence", c%"feTurbulence"), (c%"foreignobject", c%"foreignObject"), (c%"glyphref", c%"glyphRef"),
   (c%"lineargradient", c%"linearGradient"), (c%"radialgradient", c%"radialGradient"), (c%"textpath", c%"textPath")]

/-- core/constants.py:113-169 `QUIRKY_PUBLIC_PREFIXES`. -/
def quirkyPrefixes : List Str :=
  [c%"-//advasoft ltd//dtd html 3.0 aswedit + extensions//", c%"-//as//dtd html 3.0 aswedit + extensions//",
   c%"-//ietf//dtd html 2.0 level 1//", c%"-//ietf//dtd html 2.0 level 2//", c%"-//ietf//dtd html 2.0 strict level 1//",
   c%"-//ietf//dtd html 2.0 strict level 2//", c%"-//ietf//dtd html 2.0 strict//", c%"-//ietf//dtd html 2.0//",
   c%"-//ietf//dtd html 2.1e//", c%"-//ietf//dtd html 3.0//", c%"-//ietf//dtd html 3.2 final//", c%"-//ietf//dtd html 3.2//",
   c%"-//ietf//dtd html 3//", c%"-//ietf//dtd html level 0//", c%"-//ietf//dtd html level 1//", c%"-//ietf//dtd html level 2//",
   c%"-//ietf//dtd html level 3//", c%"-//ietf//dtd html strict level 0//", c%"-//ietf//dtd html strict level 1//",
   c%"-//ietf//dtd html strict level 2//", c%"-//ietf//dtd html strict level 3//", c%"-//ietf//dtd html strict//", c%"-//ietf//dtd html//",
   c%"-//metrius//dtd metrius presentational//", c%"-//microsoft//dtd internet explorer 2.0 html strict//",
   c%"-//microsoft//dtd internet explorer 2.0 html//", c%"-//microsoft//dtd internet explorer 2.0 tables//",
   c%"-//microsoft//dtd internet explorer 3.0 html strict//", c%"-//microsoft//dtd internet explorer 3.0 html//",
   c%"-//microsoft//dtd internet explorer 3.0 tables//", c%"-//netscape comm. corp.//dtd html//",
   c%"-//netscape comm. corp.//dtd strict html//", c%"-//o'reilly and associates//dtd html 2.0//",
   c%"-//o'reilly and associates//dtd html extended 1.0//", c%"-//o'reilly and associates//dtd html extended relaxed 1.0//",
   c%"-//softquad software//dtd hotmetal pro 6.0::19990601::extensions to html 4.0//",
   c%"-//softquad//dtd hotmetal pro 4.0::19971010::extensions to html 4.0//", c%"-//spyglass//dtd html 2.0 extended//",
   c%"-//sq//dtd html 2.0 hotmetal + extensions//", c%"-//sun microsystems corp.//dtd hotjava html//",
   c%"-//sun microsystems corp.//dtd hotjava strict html//", c%"-//w3c//dtd html 3 1995-03-24//", c%"-//w3c//dtd html 3.2 draft//",
   c%"-//w3c//dtd html 3.2 final//", c%"-//w3c//dtd html 3.2//", c%"-//w3c//dtd html 3.2s draft//", c%"-//w3c//dtd html 4.0 frameset//",
   c%"-//w3c//dtd html 4.0 transitional//", c%"-//w3c//dtd html experimental 19960712//", c%"-//w3c//dtd html experimental 970421//",
   c%"-//w3c//dtd w3 html//", c%"-//w3o//dtd w3 html 3.0//", c%"-//webtechs//dtd mozilla html 2.0//", c%"-//webtechs//dtd mozilla html//"]

/-- core/constants.py:171-175 `QUIRKY_PUBLIC_MATCHES`. -/
def quirkyPublic : List Str :=
  [c%"-//w3o//dtd w3 html strict 3.0//en//", c%"-/w3c/dtd html 4.0 transitional/en", c%"html"]

/-- core/constants.py:177 `QUIRKY_SYSTEM_MATCHES`. -/
def quirkySystem : List Str :=
  [c%"http://www.ibm.com/data/dtd/v11/ibmxhtml1-transitional.dtd"]

/-- core/constants.py:179-182 `LIMITED_QUIRKY_PUBLIC_PREFIXES`. -/
def limitedPrefixes : List Str :=
  [c%"-//w3c//dtd xhtml 1.0 frameset//", c%"-//w3c//dtd xhtml 1.0 transitional//"]

/-- core/constants.py:184-187 `HTML4_PUBLIC_PREFIXES`. -/
def html4Prefixes : List Str :=
  [c%"-//w3c//dtd html 4.01 frameset//", c%"-//w3c//dtd html 4.01 transitional//"]

/-- core/constants.py:189 `HEADING_ELEMENTS`. -/
def headings : List Str :=
  [c%"h1", c%"h2", c%"h3", c%"h4", c%"h5", c%"h6"]

/-- core/constants.py:256-271 `FORMATTING_ELEMENTS`. -/
def formatting : List Str :=
  [c%"a", c%"b", c%"big", c%"code", c%"em", c%"font", c%"i", c%"nobr", c%"s", c%"small", c%"strike", c%"strong", c%"tt", c%"u"]

/-- core/constants.py:273-357 `SPECIAL_ELEMENTS`. -/
def special : List Str :=
  [c%"address", c%"applet", c%"area", c%"article", c%"aside", c%"base", c%"basefont", c%"bgsound", c%"blockquote", c%"body", c%"br",
   c%"button", c%"caption", c%"center", c%"col", c%"colgroup", c%"dd", c%"details", c%"dialog", c%"dir", c%"div", c%"dl", c%"dt",
   c%"embed", c%"fieldset", c%"figcaption", c%"figure", c%"footer", c%"form", c%"frame", c%"frameset", c%"h1", c%"h2", c%"h3", c%"h4",
   c%"h5", c%"h6", c%"head", c%"header", c%"hgroup", c%"hr", c%"html", c%"iframe", c%"img", c%"input", c%"keygen", c%"li", c%"link",
   c%"listing", c%"main", c%"marquee", c%"menu", c%"meta", c%"nav", c%"noembed", c%"noframes", c%"noscript", c%"object", c%"ol", c%"p",
   c%"param", c%"plaintext", c%"pre", c%"script", c%"search", c%"section", c%"select", c%"source", c%"style", c%"summary", c%"table",
   c%"tbody", c%"td", c%"template", c%"textarea", c%"tfoot", c%"th", c%"thead", c%"title", c%"tr", c%"track", c%"ul", c%"wbr"]

/-- core/constants.py:361-371 `DEFAULT_SCOPE_TERMINATORS`. -/
def defaultScope : List Str :=
  [c%"applet", c%"caption", c%"html", c%"table", c%"td", c%"th", c%"marquee", c%"object", c%"template"]

/-- core/constants.py:418-463 `FOREIGN_BREAKOUT_ELEMENTS`. -/
def breakout : List Str :=
  [c%"b", c%"big", c%"blockquote", c%"body", c%"br", c%"center", c%"code", c%"dd", c%"div", c%"dl", c%"dt", c%"em", c%"embed", c%"h1",
   c%"h2", c%"h3", c%"h4", c%"h5", c%"h6", c%"head", c%"hr", c%"i", c%"img", c%"li", c%"listing", c%"menu", c%"meta", c%"nobr", c%"ol",
   c%"p", c%"pre", c%"ruby", c%"s", c%"small", c%"span", c%"strong", c%"strike", c%"sub", c%"sup", c%"table", c%"tt", c%"u", c%"ul",
   c%"var"]

/-- core/constants.py:479-491 `TABLE_ALLOWED_CHILDREN`. -/
def tableAllowed : List Str :=
  [c%"caption", c%"colgroup", c%"tbody", c%"tfoot", c%"thead", c%"tr", c%"td", c%"th", c%"script", c%"template", c%"style"]

/-- core/constants.py:494 `IMPLIED_END_TAGS`. -/
def impliedEnd : List Str :=
  [c%"dd", c%"dt", c%"li", c%"option", c%"optgroup", c%"p", c%"rb", c%"rp", c%"rt", c%"rtc"]

/-- core/constants.py:496-513 `VOID_ELEMENTS`. -/
def voids : List Str :=
  [c%"area", c%"base", c%"br", c%"col", c%"embed", c%"hr", c%"img", c%"input", c%"link", c%"meta", c%"param", c%"source", c%"track",
   c%"wbr"]

/-- parser/engine.py:77 `_DROP_SUBTREE_TAGS`. -/
def dropSubtreeTags : List Str :=
  [c%"svg", c%"math"]

/-- parser/engine.py:78 `_RCDATA_TAGS`. -/
def rcdata : List Str :=
  [c%"title", c%"textarea"]

/-- parser/engine.py:79 `_RAWTEXT_AS_TEXT_TAGS`. -/
def rawAsText : List Str :=
  [c%"iframe", c%"noembed", c%"noframes", c%"noscript", c%"xmp"]

/-- parser/engine.py:80 `_RAWTEXT_ELEMENT_TAGS`. -/
def rawElems : List Str :=
  [c%"script", c%"style", c%"iframe", c%"noembed", c%"noframes", c%"noscript", c%"xmp"]

/-- parser/engine.py:83 `_ACTIVE_FORMATTING_MARKER_TAGS`. -/
def markerTags : List Str :=
  [c%"applet", c%"caption", c%"marquee", c%"object"]

/-- parser/engine.py:93-105 `_HEAD_CONTENT_TAGS`. -/
def headContent : List Str :=
  [c%"base", c%"basefont", c%"bgsound", c%"link", c%"meta", c%"noframes", c%"noscript", c%"script", c%"style", c%"template", c%"title"]

/-- parser/engine.py:106-141 `_P_CLOSING_START_TAGS`. -/
def pClosing : List Str :=
  [c%"address", c%"article", c%"aside", c%"blockquote", c%"center", c%"details", c%"dialog", c%"dir", c%"div", c%"dl", c%"fieldset",
   c%"figcaption", c%"figure", c%"footer", c%"form", c%"header", c%"hgroup", c%"hr", c%"listing", c%"main", c%"menu", c%"nav", c%"ol",
   c%"p", c%"pre", c%"search", c%"section", c%"summary", c%"table", c%"ul", c%"dd", c%"dt", c%"li", c%"xmp"] ++ headings

/-- parser/engine.py:142 `_HEAD_NOSCRIPT_ALLOWED_START_TAGS`. -/
def noscriptAllowed : List Str :=
  [c%"basefont", c%"bgsound", c%"link", c%"meta", c%"noframes", c%"style"]

/-- parser/engine.py:143 `_HEAD_NOSCRIPT_VOID_START_TAGS`. -/
def noscriptVoid : List Str :=
  [c%"basefont", c%"bgsound"]

/-- parser/engine.py:144 `_HEAD_ONLY_VOID_START_TAGS`. -/
def headOnlyVoid : List Str :=
  [c%"basefont", c%"bgsound"]

/-- parser/engine.py:149 `_INLINE_HEAD_VOID_START_TAGS`. -/
def inlineHeadVoid : List Str :=
  [c%"base", c%"basefont", c%"bgsound", c%"link", c%"meta"]

/-- parser/engine.py:153 `_RUBY_START_TAGS`. -/
def rubyTags : List Str :=
  [c%"rb", c%"rp", c%"rt", c%"rtc"]

/-- parser/engine.py:154 `_STACK_REPAIR_START_TAGS`. -/
def stackRepair : List Str :=
  [c%"dd", c%"dt", c%"li", c%"optgroup", c%"option"] ++ headings

/-- parser/engine.py:155-176 `_COMPILED_SIMPLE_START_EXCLUSIONS`. -/
def simpleStartExcl : List Str :=
  [c%"body", c%"button", c%"caption", c%"col", c%"colgroup", c%"form", c%"head", c%"html", c%"select", c%"table", c%"tbody", c%"td",
   c%"tfoot", c%"th", c%"thead", c%"tr"] ++ stackRepair ++ markerTags

/-- parser/engine.py:177-194 `_COMPILED_SIMPLE_END_EXCLUSIONS`. -/
def simpleEndExcl : List Str :=
  [c%"body", c%"br", c%"colgroup", c%"head", c%"html", c%"table", c%"tbody", c%"template", c%"tfoot", c%"thead", c%"tr", c%"td", c%"th"] ++ headings ++ markerTags

/-- parser/engine.py:198 `_PRE_LINEFEED_IGNORING_TAGS`. -/
def preLf : List Str :=
  [c%"listing", c%"pre"]

/-- parser/engine.py:201 `_TABLE_SECTION_TAGS`. -/
def tableSections : List Str :=
  [c%"tbody", c%"thead", c%"tfoot"]

/-- parser/engine.py:202 `_TABLE_CELL_TAGS`. -/
def tableCells : List Str :=
  [c%"td", c%"th"]

/-- parser/engine.py:203 `_TABLE_SCOPED_END_TAGS`. -/
def tableScopedEnd : List Str :=
  [c%"caption", c%"table", c%"tbody", c%"td", c%"tfoot", c%"th", c%"thead", c%"tr"]

/-- parser/engine.py:204 `_TABLE_FOSTER_TARGETS`. -/
def fosterTargets : List Str :=
  [c%"table", c%"tbody", c%"tfoot", c%"thead", c%"tr"]

/-- parser/engine.py:205 `_SLOW_TEXT_PARENT_TAGS`. -/
def slowText : List Str :=
  [c%"head", c%"html", c%"template"] ++ fosterTargets

/-- parser/engine.py:206 `_SLOW_START_PARENT_TAGS`. -/
def slowStart : List Str :=
  [c%"optgroup", c%"option", c%"select"] ++ slowText

/-- parser/engine.py:207 `_TABLE_STRUCTURE_START_TAGS`. -/
def tableStructure : List Str :=
  [c%"caption", c%"col", c%"colgroup", c%"table", c%"tbody", c%"td", c%"tfoot", c%"th", c%"thead", c%"tr"]

/-- parser/engine.py:230 `_TEMPLATE_TABLE_CONTEXT_START_TAGS`. -/
def tplTableContext : List Str :=
  [c%"caption", c%"col", c%"colgroup", c%"tbody", c%"td", c%"tfoot", c%"th", c%"thead", c%"tr"]

/-- parser/engine.py:231 `_TEMPLATE_TABLE_BODY_IGNORED_START_TAGS`. -/
def tplBodyIgnored : List Str :=
  [c%"caption", c%"col", c%"colgroup", c%"table"]

/-- parser/engine.py:232 `_TEMPLATE_ROW_STRUCTURE_START_TAGS`. -/
def tplRowStructure : List Str :=
  [c%"caption", c%"col", c%"colgroup", c%"tbody", c%"tfoot", c%"thead", c%"tr", c%"table"]

/-- parser/engine.py:237-246 `_TEMPLATE_INITIAL_BODY_SWITCH_TAGS`. -/
def tplBodySwitch : List Str :=
  [c%"base", c%"basefont", c%"bgsound", c%"noframes", c%"iframe", c%"noembed", c%"xmp", c%"textarea"]

/-- parser/engine.py:247 `_FRAMESET_BODY_OK_TAGS`. -/
def framesetOk : List Str :=
  [c%"div", c%"figure", c%"p", c%"param", c%"source", c%"track"] ++ formatting

/-- parser/engine.py:248-265 `_FRAMESET_BLOCKING_START_TAGS`. -/
def framesetBlocking : List Str :=
  [c%"applet", c%"area", c%"button", c%"dd", c%"dt", c%"embed", c%"iframe", c%"input", c%"keygen", c%"listing", c%"marquee", c%"object",
   c%"select", c%"textarea", c%"wbr", c%"xmp"]

/-- parser/engine.py:266 `_UNWRAP_CONSTRUCTION_SKIP_TAGS`. -/
def unwrapSkip : List Str :=
  [c%"col", c%"colgroup", c%"form", c%"menuitem"]

/-- parser/engine.py:267 `_FOREIGN_FULL_PARSE_TAGS`. -/
def foreignFull : List Str :=
  [c%"annotation-xml", c%"desc", c%"font", c%"foreignobject", c%"title"] ++ breakout

/-- parser/engine.py:195 `_HTML_VOID_ELEMENTS`. -/
def htmlVoids : List Str :=
  [c%"basefont", c%"bgsound", c%"frame", c%"keygen"] ++ voids

/-- parser/engine.py:81 `_PLAINTEXT_TAGS`. -/
def plaintextTags : List Str := [c%"plaintext"]

/-- core/constants.py:361-371 `DEFAULT_SCOPE_TERMINATORS` with 373 `BUTTON_SCOPE_TERMINATORS` (parser/engine.py:92 `_P_SCOPE_BOUNDARIES`). -/
def pScope : List Str := c%"button" :: defaultScope

/-- core/constants.py:374 `LIST_ITEM_SCOPE_TERMINATORS` (parser/engine.py:197 `_LIST_ITEM_SCOPE_BOUNDARIES`). -/
def liScope : List Str := c%"ol" :: c%"ul" :: defaultScope

/-- core/constants.py:375 `DEFINITION_SCOPE_TERMINATORS` (parser/engine.py:196 `_DEFINITION_SCOPE_BOUNDARIES`). -/
def ddScope : List Str := c%"dl" :: defaultScope

/-- parser/engine.py:199 `_TABLE_CONTEXT_BOUNDARIES`. -/
def tableScope : List Str := [c%"table"]

/-- parser/engine.py:200 `_GENERAL_END_TAG_BOUNDARIES`. -/
def generalScope : List Str := special ++ [c%"button", c%"table"]

/-- core/constants.py:471-473 `HTML_INTEGRATION_POINT_SET` (96-101 `HTML_INTEGRATION_POINT_ELEMENTS`). -/
def htmlPoints : List (Str × Str) :=
  [(c%"math", c%"annotation-xml"), (c%"svg", c%"foreignObject"), (c%"svg", c%"desc"), (c%"svg", c%"title")]

/-- core/constants.py:475-477 `MATHML_TEXT_INTEGRATION_POINT_SET`: the names, all of namespace `math` (105-111). -/
def mathPoints : List Str := [c%"mi", c%"mo", c%"mn", c%"ms", c%"mtext"]

/-- core/constants.py:13-25 `FOREIGN_ATTRIBUTE_ADJUSTMENTS`: lower-case name, prefix and local name. -/
def foreignAttrAdjust : List (Str × Option Str × Str) :=
  [(c%"xlink:actuate", some c%"xlink", c%"actuate"), (c%"xlink:arcrole", some c%"xlink", c%"arcrole"), (c%"xlink:href", some c%"xlink", c%"href"),
   (c%"xlink:role", some c%"xlink", c%"role"), (c%"xlink:show", some c%"xlink", c%"show"), (c%"xlink:title", some c%"xlink", c%"title"),
   (c%"xlink:type", some c%"xlink", c%"type"), (c%"xml:lang", some c%"xml", c%"lang"), (c%"xml:space", some c%"xml", c%"space"),
   (c%"xmlns", none, c%"xmlns"), (c%"xmlns:xlink", some c%"xmlns", c%"xlink")]

/-- `d.get(key, key)`. -/
def adjust (d : List (Str × Str)) (key : Str) : Str := (d.lookup key).getD key

end JH.Eng
