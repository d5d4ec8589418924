import Verif.Gram.PegProps
import Verif.Gram.RhsProps
import Verif.Gram.ReachProps
import Verif.Gram.MoveProps
