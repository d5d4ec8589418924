import Verif.Shared.Props
import Verif.Graph.Props
import Verif.Util.Props
import Verif.DFA.Props
import Verif.HTML.Props
import Verif.Types.Props
import Verif.Earley.Props
import Verif.Pseudo.Props
import Verif.Gram.Props
import Verif.Records.Props
import Verif.Intrin.Props
import Verif.Env.Props
import Verif.Exec.Props
import Verif.Early.Props
import Verif.Sections.Props
import Verif.Vars.Props
import Verif.Sdo.Props
import Verif.Front.Props
import Verif.Validate.Props
import Verif.Ids.Props
import Verif.Tables.Props
import Verif.Sta.Props
import Verif.StepRefs.Props
import Verif.Defs.Props
import Verif.Uses.Props
import Verif.Refs.Props
import Verif.Heads.Props
import Verif.Deps.Props
import Verif.Names.Props
import Verif.Annot.Props
import Verif.Style.Props
import Verif.Algs.Props
import Verif.Layout.Props
import Verif.Focus.Props
import Verif.Titles.Props
import Verif.Calls.Props
import Verif.Arith.Props
import Verif.Paths.Props
import Verif.Unwrap.Props
import Verif.Bodies.Props
import Verif.Kinds.Props
import Verif.Strict.Props
import Verif.Preambles.Props
import Verif.Wki.Props
import Verif.Dl.Props
import Verif.Checks.Props
import Verif.Objs.Props
import Verif.Propsecs.Props
import Verif.Facts.Props
import Verif.Blocks.Props
import Verif.Tuples.Props
import Verif.CodePoints.Props
import Verif.Dots.Props
import Verif.Conds.Props
import Verif.Trees.Props
import Verif.Runs.Props
import Verif.Recs.Props
import Verif.Unesc.Props
import Verif.Fieldsets.Props
import Verif.Suite.Props
import Verif.Exprs.Props
import Verif.Lookups.Props
import Verif.Numval.Props
import Verif.Typetree.Props
import Verif.Reduce.Props
