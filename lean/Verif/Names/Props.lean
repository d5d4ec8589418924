import Verif.Earley.Props
import Verif.Env.Props
import Verif.HTML.Props
import Verif.Ids.Props
import Verif.Intrin.Props
import Verif.Pseudo.Props
import Verif.Sta.Props
import Verif.Tables.Props
import Verif.Types.Props
import Verif.Validate.Props
/-!
# The names that the specifications use

Some specifications mention constants of the model by name.  These theorems say what the constants are, so that the specifications can be read without the models.
-/
namespace Verif.Earley

theorem c21_names : endOfInput = .named "_EOI_" ∧
    wrappers = ["InputElementDiv", "InputElementRegExp", "InputElementRegExpOrTemplateTail", "InputElementTemplateTail", "InputElement_common", "TemplateSubstitutionTail", "CommonToken", "Template"] ∧
    namedTokens = ["IdentifierName", "NoSubstitutionTemplate", "NumericLiteral", "RegularExpressionLiteral", "StringLiteral", "TemplateHead", "TemplateMiddle", "TemplateTail"] ∧
    acceptance = .named "_ACCEPTANCE_" ∧
    otherIdStart = ['\u1885', '\u1886', '\u309b', '\u309c', '\u2118', '\u212e'] ∧
    otherIdContinue = ['\u00b7', '\u0387', '\u1369', '\u136a', '\u136b', '\u136c', '\u136d', '\u136e', '\u136f', '\u1370', '\u1371', '\u19da', '\u200c', '\u200d', '\u30fb', '\uff65'] ∧
    unchecked = "the CapturingGroupNumber of |DecimalEscape| is &le; CountLeftCapturingParensWithin(the |Pattern| containing |DecimalEscape|)" :=
  ⟨rfl, rfl, rfl, rfl, rfl, rfl, rfl⟩

end Verif.Earley

namespace Verif.Env

theorem c35_names : notSet = .hier "not_set" ∧
    notReturned = .hier "not_returned" :=
  ⟨rfl, rfl⟩

end Verif.Env

namespace Verif.HTML

theorem c12_names : litName = "#LITERAL".toList ∧
    commentName = "#COMMENT".toList ∧
    declName = "#DECL".toList ∧
    styleName = "style".toList :=
  ⟨rfl, rfl, rfl, rfl⟩

end Verif.HTML

namespace Verif.Ids

theorem c51_names : sClause = "emu-clause".toList ∧
    sAnnex = "emu-annex".toList ∧
    sIntro = "emu-intro".toList ∧
    sEqn = "emu-eqn".toList ∧
    sFigure = "emu-figure".toList ∧
    sTable = "emu-table".toList ∧
    sAlg = "emu-alg".toList ∧
    sNote = "emu-note".toList ∧
    sXref = "emu-xref".toList ∧
    sDfn = "dfn".toList ∧
    aId = "id".toList ∧
    aAoid = "aoid".toList ∧
    aOldids = "oldids".toList ∧
    aHref = "href".toList ∧
    aVariants = "variants".toList ∧
    pSec = "sec-".toList ∧
    pEqn = "eqn-".toList ∧
    pFigure = "figure-".toList ∧
    pTable = "table-".toList ∧
    pStep = "step-".toList ∧
    imported = ["table-binary-unicode-properties".toList, "table-nonbinary-unicode-properties".toList, "table-binary-unicode-properties-of-strings".toList, "table-unicode-general-category-values".toList, "table-unicode-script-values".toList] ∧
    cssIds = ["metadata-block".toList, "ecma-logo".toList] :=
  ⟨rfl, rfl, rfl, rfl, rfl, rfl, rfl, rfl, rfl, rfl, rfl, rfl, rfl, rfl, rfl, rfl, rfl, rfl, rfl, rfl, rfl, rfl⟩

end Verif.Ids

namespace Verif.Intrin

theorem c31_names : kinds = ["an ordinary object", "a function object", "a constructor", "a String exotic object", "an Array exotic object", "an immutable prototype exotic object whose other internal methods are ordinary"] ∧
    globalName = "%(global)%" ∧
    unscopables = "%Array.prototype[%Symbol.unscopables%]%" :=
  ⟨rfl, rfl, rfl⟩

end Verif.Intrin

namespace Verif.Pseudo

theorem c19_names : epsilon = "{EPSILON}".toList :=
  rfl

end Verif.Pseudo

namespace Verif.Sta

theorem c53_names : retName = "*return*" :=
  rfl

end Verif.Sta

namespace Verif.Tables

theorem c52_names : sTh = "th".toList ∧
    sTd = "td".toList ∧
    sCap = "emu-caption".toList ∧
    aCaption = "caption".toList ∧
    aType = "type".toList ∧
    aOf = "of".toList ∧
    aColspan = "colspan".toList ∧
    sAbstract = "abstract methods".toList ∧
    sAbstractOf = "Abstract Methods of ".toList ∧
    capImport = "Import Forms Mappings to ImportEntry Records".toList ∧
    capNumeric = "Numeric Type Operations".toList :=
  ⟨rfl, rfl, rfl, rfl, rfl, rfl, rfl, rfl, rfl, rfl, rfl⟩

end Verif.Tables

namespace Verif.Types

theorem c15_names : Top = "Top_" ∧
    ListN = "List" ∧
    RecordN = "Record" ∧
    ProcN = "proc_" :=
  ⟨rfl, rfl, rfl, rfl⟩

end Verif.Types

namespace Verif.Validate

theorem c50_names : thName = "th".toList ∧
    tdName = "td".toList ∧
    tableName = "table".toList ∧
    className = "class".toList ∧
    lightName = "lightweight-table".toList ∧
    wsTok = "#WS".toList ∧
    textTok = "#TEXT".toList :=
  ⟨rfl, rfl, rfl, rfl, rfl, rfl, rfl⟩

end Verif.Validate
