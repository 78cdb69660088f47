import Verif.Basic.Bytes
import Verif.Model.TextUtils
import Verif.Model.Escape
import Verif.Spec.Lines
import Verif.Spec.Inline
import Verif.Proofs.Escape
import Verif.Proofs.EscapeLines
import Verif.Proofs.EscapeText
import Verif.Proofs.EscapeInline
import Verif.Props.Escape
import Verif.Spec.Whitespace
import Verif.Model.Commonmark
import Verif.Proofs.Trim
import Verif.Proofs.Strings
import Verif.Proofs.Code
import Verif.Props.Code
import Verif.Spec.Blocks
import Verif.Proofs.Fenced
import Verif.Props.Fenced
import Verif.Spec.Pointwise
import Verif.Props.Spaces
import Verif.Props.Titles
import Verif.Props.Newlines
import Verif.Props.Headings
import Verif.Spec.Lists
import Verif.Spec.Url
import Verif.Model.Url
import Verif.Proofs.Lists
import Verif.Props.Lists
import Verif.Props.Trimmed
import Verif.Props.Url
import Verif.Model.Config
import Verif.Props.Config
import Verif.Model.Dom
import Verif.Model.Engine
import Verif.Spec.Engine
import Verif.Proofs.Engine
import Verif.Props.Engine
import Verif.Model.Concurrency
import Verif.Props.Concurrency
import Verif.Model.Cli
import Verif.Spec.Cli
import Verif.Proofs.CliFlags
import Verif.Proofs.Cli
import Verif.Props.Cli
import Verif.Model.Table
import Verif.Spec.Table
import Verif.Proofs.Table
import Verif.Proofs.TableCells
import Verif.Proofs.TableGrid
import Verif.Props.Table
import Verif.Props.TableGrid
import Verif.Spec.Links
import Verif.Proofs.Links
import Verif.Props.Links
import Verif.Spec.Dom
import Verif.Spec.Visible
import Verif.Model.DomUtils
import Verif.Proofs.Visible
import Verif.Proofs.Dom
import Verif.Proofs.DomText
import Verif.Proofs.DomBlocks
import Verif.Proofs.DomListEnd
import Verif.Proofs.DomAll
import Verif.Props.Dom
import Verif.Spec.Collapse
import Verif.Model.Collapse
import Verif.Proofs.Collapse
import Verif.Proofs.CollapseTree
import Verif.Proofs.CollapseTwice
import Verif.Proofs.CollapseFlow
import Verif.Props.Collapse
import Verif.Proofs.DomMerge
import Verif.Proofs.DomInside
import Verif.Proofs.DomSpace
import Verif.Props.DomMore
import Verif.Model.Render
import Verif.Spec.Characters
import Verif.Proofs.Chars
import Verif.Proofs.CharsOps
import Verif.Proofs.DomKind
import Verif.Spec.Render
import Verif.Proofs.CharsTree
import Verif.Proofs.CharsRender
import Verif.Proofs.CharsHeading
import Verif.Proofs.CharsParts
import Verif.Proofs.CharsMain
import Verif.Proofs.RenderEval
import Verif.Props.Render
import Verif.Model.CliDom
import Verif.Spec.Selectors
import Verif.Proofs.Selectors
import Verif.Props.Selectors
import Verif.Spec.TableNodes
import Verif.Proofs.DomFree
import Verif.Proofs.CharsTable
import Verif.Proofs.TableNodes
import Verif.Props.RenderTables
import Verif.Props.TableMarkdown
import Verif.Proofs.Strike
import Verif.Props.Strike
import Verif.Proofs.Local
import Verif.Props.Local
import Verif.Spec.Spans
import Verif.Spec.Page
import Verif.Proofs.PageLoop
import Verif.Proofs.PageInert
import Verif.Proofs.PageSpans
import Verif.Proofs.PageRich
import Verif.Proofs.PageRichHeading
import Verif.Proofs.PageRichRender
import Verif.Proofs.PageTree
import Verif.Proofs.PageInline
import Verif.Proofs.PageText
import Verif.Proofs.PageHeading
import Verif.Proofs.PageSolid
import Verif.Proofs.PageRead
import Verif.Proofs.PagePieces
import Verif.Proofs.PageLeaf
import Verif.Proofs.PageList
import Verif.Proofs.PageItems
import Verif.Proofs.PageQuoteLoop
import Verif.Proofs.PageQuote
import Verif.Proofs.PageQuoteLine
import Verif.Proofs.PageRender
import Verif.Props.Page
import Verif.Props.PageEngine
import Verif.Proofs.Calm
import Verif.Model.Stock
import Verif.Spec.Stock
import Verif.Proofs.Stock
import Verif.Proofs.StockConv
import Verif.Props.Stock
import Verif.Model.CliConvert
import Verif.Spec.CliConvert
import Verif.Proofs.CliConvert
import Verif.Props.CliConvert
import Verif.Model.CliExec
import Verif.Props.CliExec
import Verif.Proofs.StockNames
import Verif.Spec.Extend
import Verif.Proofs.Extend
import Verif.Props.Extend
import Verif.Spec.Setext
import Verif.Props.Setext
import Verif.Props.Everyday
import Verif.Model.Convert
import Verif.Spec.Context
import Verif.Proofs.EngineFrame
import Verif.Props.Convert
import Verif.Props.Custom
import Verif.Spec.CodeNodes
import Verif.Props.CodeNodes
import Verif.Proofs.Inner
import Verif.Proofs.Marks
import Verif.Proofs.Edge
import Verif.Proofs.EdgeTable
import Verif.Proofs.EdgeTree
import Verif.Props.Edges
import Verif.Props.TableNewlines
import Verif.Props.OutputNames
import Verif.Props.EdgesEngine
import Verif.Props.ConcurrencyAlone
import Verif.Props.Size
import Verif.Props.SizeSpans
import Verif.Props.SizeEngine
import Verif.Props.Alike
import Verif.Props.Invisible
import Verif.Spec.Sections
import Verif.Proofs.LocalRaw
import Verif.Proofs.CutDom
import Verif.Proofs.CutTree
import Verif.Proofs.CutBytes
import Verif.Proofs.Doctype
import Verif.Props.Sections
import Verif.Spec.TitleSections
import Verif.Props.TitleSections
import Verif.Spec.SameDocument
import Verif.Props.SameDocument
import Verif.Spec.BlockSections
import Verif.Proofs.CutFrame
import Verif.Props.BlockSections
import Verif.Proofs.CutPair
import Verif.Spec.Join
import Verif.Props.Join
import Verif.Spec.CodeSections
import Verif.Proofs.CutCode
import Verif.Props.CodeSections
import Verif.Props.Edit
